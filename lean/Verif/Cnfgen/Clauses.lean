import Verif.Cnfgen.Models3
/-
  C82: what a generated formula says, constraint by constraint.  For a formula that cannot be satisfied "the models are exactly …" (C67) says
  nothing about its single clauses; here each constraint is found in the clauses, and each clause comes from a constraint.
-/
namespace NDP.Cnfgen
open NDP

/-! ### Specification -/

/-- The numbered clauses `cs` over the variables `vs` are those of the constraints `Φ`: for each constraint there are clauses that say exactly
it, and each clause follows from one of the constraints. -/
structure Says {V : Type} (vs : List V) (cs : List (List Int)) (Φ : Set ((V → Bool) → Prop)) : Prop where
  each : ∀ φ ∈ Φ, ∃ ds, (∀ c ∈ ds, c ∈ cs) ∧ ∀ α, Holds vs ds α ↔ φ α
  only : ∀ c ∈ cs, ∃ φ ∈ Φ, ∀ α, φ α → Holds vs [c] α

/-! ### Proofs -/

/-- The same for clauses with names. -/
structure SaysLits {V : Type} (cs : List (List (Lit V))) (Φ : Set ((V → Bool) → Prop)) : Prop where
  each : ∀ φ ∈ Φ, ∃ ds, (∀ c ∈ ds, c ∈ cs) ∧ ∀ α, AllTrue α ds ↔ φ α
  only : ∀ c ∈ cs, ∃ φ ∈ Φ, ∀ α, φ α → ClauseTrue α c

section
variable {V : Type}

theorem SaysLits.holds {cs : List (List (Lit V))} {Φ : Set ((V → Bool) → Prop)} (h : SaysLits cs Φ) (α : V → Bool) : AllTrue α cs ↔ ∀ φ ∈ Φ, φ α := by
  constructor
  · intro ha φ hφ
    obtain ⟨ds, h1, h2⟩ := h.each φ hφ
    exact (h2 α).1 fun c hc => ha c (h1 c hc)
  · intro ha c hc
    obtain ⟨φ, hφ, h1⟩ := h.only c hc
    exact h1 α (ha φ hφ)

theorem Says.holds {vs : List V} {cs : List (List Int)} {Φ : Set ((V → Bool) → Prop)} (h : Says vs cs Φ) (α : V → Bool) : Holds vs cs α ↔ ∀ φ ∈ Φ, φ α := by
  constructor
  · intro ha φ hφ
    obtain ⟨ds, h1, h2⟩ := h.each φ hφ
    exact (h2 α).1 fun c hc => ha c (h1 c hc)
  · intro ha c hc
    obtain ⟨φ, hφ, h1⟩ := h.only c hc
    exact h1 α (ha φ hφ) c (by simp)

theorem SaysLits.says [DecidableEq V] {F : CNF V} {cs : List (List (Lit V))} {Φ : Set ((V → Bool) → Prop)} (hc : F.Coh cs) (h : SaysLits cs Φ) : Says F.vars F.clauses Φ := by
  have sub : ∀ ds : List (List (Lit V)), (∀ c ∈ ds, c ∈ cs) → ∀ α, Holds F.vars (ds.map fun c => c.map F.code) α ↔ AllTrue α ds := by
    intro ds hd α
    exact (CNF.Coh.mk (F := { F with clauses := ds.map fun c => c.map F.code }) hc.nodup (fun c h => hc.known c (hd c h)) rfl).holds α
  constructor
  · intro φ hφ
    obtain ⟨ds, h1, h2⟩ := h.each φ hφ
    refine ⟨ds.map fun c => c.map F.code, ?_, fun α => by rw [sub ds h1, h2]⟩
    intro c hcm
    obtain ⟨d, hd, rfl⟩ := List.mem_map.1 hcm
    rw [hc.clauses]
    exact List.mem_map_of_mem (h1 d hd)
  · intro c hcm
    rw [hc.clauses] at hcm
    obtain ⟨d, hd, rfl⟩ := List.mem_map.1 hcm
    obtain ⟨φ, hφ, h1⟩ := h.only d hd
    refine ⟨φ, hφ, fun α ha => ?_⟩
    have := (sub [d] (by simpa using hd) α).2 (by rw [allTrue_cons]; exact ⟨h1 α ha, allTrue_nil α⟩)
    simpa using this

theorem says_nil : SaysLits ([] : List (List (Lit V))) ∅ := ⟨by simp, by simp⟩

theorem says_one {cs : List (List (Lit V))} {φ : (V → Bool) → Prop} (h : ∀ α, AllTrue α cs ↔ φ α) : SaysLits cs {φ} :=
  ⟨fun ψ hψ => ⟨cs, fun _ h => h, by rw [Set.mem_singleton_iff.1 hψ]; exact h⟩, fun c hc => ⟨φ, rfl, fun α ha => (h α).2 ha c hc⟩⟩

theorem says_append {cs ds : List (List (Lit V))} {Φ Ψ : Set ((V → Bool) → Prop)} (h1 : SaysLits cs Φ) (h2 : SaysLits ds Ψ) : SaysLits (cs ++ ds) (Φ ∪ Ψ) := by
  constructor
  · rintro φ (hφ | hφ)
    · obtain ⟨es, e1, e2⟩ := h1.each φ hφ
      exact ⟨es, fun c hc => List.mem_append_left _ (e1 c hc), e2⟩
    · obtain ⟨es, e1, e2⟩ := h2.each φ hφ
      exact ⟨es, fun c hc => List.mem_append_right _ (e1 c hc), e2⟩
  · intro c hc
    rcases List.mem_append.1 hc with hc | hc
    · obtain ⟨φ, hφ, e⟩ := h1.only c hc; exact ⟨φ, .inl hφ, e⟩
    · obtain ⟨φ, hφ, e⟩ := h2.only c hc; exact ⟨φ, .inr hφ, e⟩

theorem says_flatMap {ι : Type} {l : List ι} {f : ι → List (List (Lit V))} {Φ : ι → Set ((V → Bool) → Prop)} (h : ∀ i ∈ l, SaysLits (f i) (Φ i)) :
    SaysLits (l.flatMap f) {φ | ∃ i ∈ l, φ ∈ Φ i} := by
  constructor
  · rintro φ ⟨i, hi, hφ⟩
    obtain ⟨es, e1, e2⟩ := (h i hi).each φ hφ
    exact ⟨es, fun c hc => List.mem_flatMap.2 ⟨i, hi, e1 c hc⟩, e2⟩
  · intro c hc
    obtain ⟨i, hi, hc⟩ := List.mem_flatMap.1 hc
    obtain ⟨φ, hφ, e⟩ := (h i hi).only c hc
    exact ⟨φ, ⟨i, hi, hφ⟩, e⟩

/-- One constraint for each index. -/
theorem says_each {ι : Type} {l : List ι} {f : ι → List (List (Lit V))} {φ : ι → (V → Bool) → Prop} (h : ∀ i ∈ l, ∀ α, AllTrue α (f i) ↔ φ i α) :
    SaysLits (l.flatMap f) {ψ | ∃ i ∈ l, ψ = φ i} :=
  says_flatMap (Φ := fun i => {φ i}) fun i hi => says_one (h i hi)

/-- One clause for each index. -/
theorem says_map {ι : Type} {l : List ι} {f : ι → List (Lit V)} {φ : ι → (V → Bool) → Prop} (h : ∀ i ∈ l, ∀ α, ClauseTrue α (f i) ↔ φ i α) :
    SaysLits (l.map f) {ψ | ∃ i ∈ l, ψ = φ i} := by
  rw [List.map_eq_flatMap]
  exact says_each fun i hi α => by rw [allTrue_cons]; simp [allTrue_nil, h i hi α]

theorem says_ite {b : Bool} {cs : List (List (Lit V))} {Φ : Set ((V → Bool) → Prop)} (h : b = true → SaysLits cs Φ) :
    SaysLits (if b then cs else []) {φ | b = true ∧ φ ∈ Φ} := by
  cases b with
  | false => simpa using (says_nil (V := V))
  | true => simpa using h rfl

theorem SaysLits.congr {cs : List (List (Lit V))} {Φ Ψ : Set ((V → Bool) → Prop)} (h : SaysLits cs Φ) (e : ∀ φ, φ ∈ Φ ↔ φ ∈ Ψ) : SaysLits cs Ψ :=
  (Set.ext e : Φ = Ψ) ▸ h

end

/-! ### Pebbling and stones -/

/-- **C82.** Pebbling: for each vertex, "with all predecessors it is pebbled"; for each sink, "it is not pebbled". -/
theorem C82_pebbling {V : Type} [DecidableEq V] {g : Digraph V} (hg : g.Wf) {F : CNF V} (h : pebbling g = pure F) :
    Says F.vars F.clauses ({φ | ∃ v ∈ g.verts, φ = fun α => (∀ p, (p, v) ∈ g.edges → α p = true) → α v = true} ∪
      {φ | ∃ v ∈ g.verts, (∀ w, (v, w) ∉ g.edges) ∧ φ = fun α => α v = false}) := by
  unfold pebbling at h
  split at h
  · refine SaysLits.says (ofParts_coh h) (SaysLits.congr (says_flatMap (Φ := fun v => {fun α => (∀ p, (p, v) ∈ g.edges → α p = true) → α v = true} ∪
      {φ | g.isSink v = true ∧ φ ∈ ({fun α => α v = false} : Set _)}) fun v hv => ?_) ?_)
    · unfold pebVertex
      refine says_append (cs := [_]) (says_one fun α => ?_) (says_ite fun _ => says_one fun α => ?_)
      · rw [allTrue_cons, clauseTrue_append]
        simp only [allTrue_nil, and_true]
        rw [show ClauseTrue α [(true, v)] ↔ α v = true by simp [clauseTrue_cons, clauseTrue_nil]]
        simp only [ClauseTrue, List.mem_map]
        constructor
        · rintro (⟨_, ⟨p, hp, rfl⟩, ht⟩ | ht) H
          · have := H p ((Digraph.mem_preds hg).1 hp)
            simp [this] at ht
          · exact ht
        · intro H
          by_cases hp : ∀ p, (p, v) ∈ g.edges → α p = true
          · exact .inr (H hp)
          · push Not at hp
            obtain ⟨p, hp, hn⟩ := hp
            exact .inl ⟨_, ⟨p, (Digraph.mem_preds hg).2 hp, rfl⟩, by simpa using hn⟩
      · simp [allTrue_cons, allTrue_nil, clauseTrue_cons, clauseTrue_nil]
    · intro φ
      simp only [Set.mem_ofPred_eq, Set.mem_union, Set.mem_singleton_iff, Digraph.isSink_iff hg]
      constructor
      · rintro ⟨v, hv, h | ⟨h1, h2⟩⟩
        · exact .inl ⟨v, hv, h⟩
        · exact .inr ⟨v, hv, h1, h2⟩
      · rintro (⟨v, hv, h⟩ | ⟨v, hv, h1, h2⟩)
        · exact ⟨v, hv, .inl h⟩
        · exact ⟨v, hv, .inr ⟨h1, h2⟩⟩
  · cases h

/-- The clauses of one stone on one vertex. -/
theorem stoneStep_true {V : Type} [DecidableEq V] {g : Digraph V} (hg : g.Wf) (images : V → List Nat) (P : V → Nat → Str) (R : Nat → Str)
    (α : Str → Bool) (v : V) (j : Nat) : AllTrue α (stoneStep g images P R v j) ↔
      (α (P v j) = true → (∀ p, (p, v) ∈ g.edges → ∃ s ∈ images p, s ≠ j ∧ α (P p s) = true ∧ α (R s) = true) → α (R j) = true) := by
  unfold stoneStep
  rw [allTrue_map]
  constructor
  · intro H hp hall
    have hall' : ∀ p ∈ g.preds v, ∃ s ∈ images p, s ≠ j ∧ α (P p s) = true ∧ α (R s) = true := fun p hp => hall p ((Digraph.mem_preds hg).1 hp)
    choose! s hs using hall'
    have hmem : (g.preds v).map s ∈ product ((g.preds v).map fun p => (images p).filter (· ≠ j)) := by
      rw [mem_product, List.forall₂_map_left_iff, List.forall₂_map_right_iff, List.forall₂_same]
      intro p hp
      exact List.mem_filter.2 ⟨(hs p hp).1, by simpa using (hs p hp).2.1⟩
    have := H _ hmem
    simp only [clauseTrue_append] at this
    rcases this with ((⟨l, hl, ht⟩ | ht) | ⟨l, hl, ht⟩) | ht
    · rw [List.zipWith_map_right, List.zipWith_self] at hl
      obtain ⟨p, hp, rfl⟩ := List.mem_map.1 hl
      simp [(hs p hp).2.2.1] at ht
    · simp [clauseTrue_cons, clauseTrue_nil, hp] at ht
    · obtain ⟨x, hx, rfl⟩ := List.mem_map.1 hl
      obtain ⟨p, hp, rfl⟩ := List.mem_map.1 (mem_uniqify.1 hx)
      simp [(hs p hp).2.2.2] at ht
    · simpa [clauseTrue_cons, clauseTrue_nil] using ht
  · intro H t ht
    obtain ⟨hf, hj'⟩ := mem_product_preds ht
    simp only [clauseTrue_append]
    by_contra hcon
    simp only [not_or] at hcon
    obtain ⟨⟨⟨h1, h2⟩, h3⟩, h4⟩ := hcon
    simp only [clauseTrue_cons, clauseTrue_nil, or_false, Bool.not_eq_false] at h2 h4
    refine h4 (H h2 fun p hp => ?_)
    have hp := (Digraph.mem_preds hg).2 hp
    -- the stone of `p` in the tuple
    have : ∀ {ps : List V} {t : List Nat}, List.Forall₂ (fun s p => s ∈ images p) t ps →
        (∀ l ∈ List.zipWith (fun p s => ((false, P p s) : Lit Str)) ps t, ¬ α l.2 = l.1) → ∀ p ∈ ps, ∃ s ∈ images p, s ∈ t ∧ α (P p s) = true := by
      intro ps t hf
      induction hf with
      | nil => intro _ p hp; simp at hp
      | cons hs _ ih =>
        intro hz p hp
        rw [List.zipWith_cons_cons] at hz
        rcases List.mem_cons.1 hp with rfl | hp
        · exact ⟨_, hs, by simp, by simpa using hz _ List.mem_cons_self⟩
        · obtain ⟨s, a, b, c⟩ := ih (fun l hl => hz l (List.mem_cons_of_mem _ hl)) p hp
          exact ⟨s, a, List.mem_cons_of_mem _ b, c⟩
    obtain ⟨s, a, b, c⟩ := this hf (fun l hl e => h1 ⟨l, hl, e⟩) p hp
    refine ⟨s, a, fun e => hj' (e ▸ b), c, ?_⟩
    by_contra hne
    exact h3 ⟨_, List.mem_map.2 ⟨s, mem_uniqify.2 b, rfl⟩, by simpa using hne⟩

/-- The constraints of the stones: for each vertex and each stone `j` allowed on it, "with a red stone other than `j` on each predecessor, `j` is red if it
is on the vertex", and, if the vertex is a sink, "`j` is not red if it is on the vertex". -/
def stoneRules {V : Type} (g : Digraph V) (images : V → List Nat) (P : V → Nat → Str) (R : Nat → Str) : Set ((Str → Bool) → Prop) :=
  {φ | ∃ v ∈ g.verts, ∃ j ∈ images v, φ = fun α =>
      α (P v j) = true → (∀ p, (p, v) ∈ g.edges → ∃ s ∈ images p, s ≠ j ∧ α (P p s) = true ∧ α (R s) = true) → α (R j) = true} ∪
  {φ | ∃ v ∈ g.verts, (∀ w, (v, w) ∉ g.edges) ∧ ∃ j ∈ images v, φ = fun α => α (P v j) = true → α (R j) = false}

theorem says_stones {V : Type} [DecidableEq V] {g : Digraph V} (hg : g.Wf) (images : V → List Nat) (P : V → Nat → Str) (R : Nat → Str) :
    SaysLits (g.verts.flatMap (stoneVertex g images P R)) (stoneRules g images P R) := by
  refine SaysLits.congr (says_flatMap (Φ := fun v => {φ | ∃ j ∈ images v, φ = fun α =>
      α (P v j) = true → (∀ p, (p, v) ∈ g.edges → ∃ s ∈ images p, s ≠ j ∧ α (P p s) = true ∧ α (R s) = true) → α (R j) = true} ∪
    {φ | g.isSink v = true ∧ φ ∈ {φ : (Str → Bool) → Prop | ∃ j ∈ images v, φ = fun α => α (P v j) = true → α (R j) = false}}) fun v hv => ?_) ?_
  · unfold stoneVertex
    refine says_append (says_each fun j _ α => stoneStep_true hg images P R α v j) (says_ite fun _ => says_map fun j _ α => ?_)
    simp only [clauseTrue_cons, clauseTrue_nil, or_false]
    cases α (P v j) <;> simp
  · intro φ
    simp only [stoneRules, Set.mem_ofPred_eq, Set.mem_union, Digraph.isSink_iff hg]
    constructor
    · rintro ⟨v, hv, h | ⟨h1, h2⟩⟩
      · exact .inl ⟨v, hv, h⟩
      · exact .inr ⟨v, hv, h1, h2⟩
    · rintro (⟨v, hv, h⟩ | ⟨v, hv, h1, h2⟩)
      · exact ⟨v, hv, .inl h⟩
      · exact ⟨v, hv, .inr ⟨h1, h2⟩⟩

/-- **C82.** Stone formula: for each vertex "there is a stone on it", and the constraints of the stones `1..nstones`. -/
theorem C82_stone {V : Type} [DecidableEq V] {nm : V → Str} {g : Digraph V} (hg : g.Wf) {nstones : Int} {F : CNF Str}
    (h : stone nm g nstones = pure F) :
    Says F.vars F.clauses ({φ | ∃ v ∈ g.verts, φ = fun α => ∃ j, (1 ≤ j ∧ j ≤ nstones.toNat) ∧ α (fmtV nm 'P' v j) = true} ∪
      stoneRules g (fun _ => oneTo nstones.toNat) (fmtV nm 'P') (fmt1 ['R'])) := by
  unfold stone at h
  split at h
  · cases h
  split at h
  · cases h
  refine SaysLits.says (ofParts_coh h) (says_append (says_map fun v _ α => ?_) (says_stones hg _ _ _))
  simp only [ClauseTrue, List.mem_map]
  constructor
  · rintro ⟨_, ⟨j, hj, rfl⟩, ht⟩; exact ⟨j, mem_oneTo.1 hj, ht⟩
  · rintro ⟨j, hj, ht⟩; exact ⟨_, ⟨j, mem_oneTo.2 hj, rfl⟩, ht⟩

/-- The stones allowed on a vertex are the numbers (counting from 1) of the right vertices joined to the left vertex at the same position. -/
theorem mem_stoneImages {V : Type} [DecidableEq V] {g : Digraph V} {b : BiGraph} (hb : b.right.Nodup) {v : V} (hv : v ∈ g.verts) (hl : b.left.length = g.verts.length) {j : Nat} :
    j ∈ stoneImages g b v ↔ ∃ l u, b.left[g.verts.idxOf v]? = some l ∧ b.right[j - 1]? = some u ∧ 1 ≤ j ∧ (l, u) ∈ b.edges := by
  have hlt := List.idxOf_lt_length_of_mem hv
  rw [← hl] at hlt
  have e : b.left.getD (g.verts.idxOf v) 0 = b.left[g.verts.idxOf v] := by simp [List.getD, hlt]
  simp only [stoneImages, List.mem_map, mem_nbrL, e, List.getElem?_eq_getElem hlt, Option.some.injEq]
  constructor
  · rintro ⟨u, ⟨hu, he⟩, rfl⟩
    have := List.idxOf_lt_length_of_mem hu
    exact ⟨_, u, rfl, by simp [List.getElem?_eq_getElem this], by omega, he⟩
  · rintro ⟨l, u, rfl, hu, hj, he⟩
    obtain ⟨hlt, hu⟩ := List.getElem?_eq_some_iff.1 hu
    refine ⟨u, ⟨hu ▸ List.getElem_mem _, he⟩, ?_⟩
    rw [← hu, hb.idxOf_getElem]; omega

/-- **C82.** Sparse stone formula: the same with the stones the bipartite graph allows. -/
theorem C82_sparse_stone {V : Type} [DecidableEq V] {nm : V → Str} {g : Digraph V} (hg : g.Wf) {b : BiGraph} {F : CNF Str}
    (h : sparseStone nm g b = pure F) :
    Says F.vars F.clauses ({φ | ∃ v ∈ g.verts, φ = fun α => ∃ j ∈ stoneImages g b v, α (fmtV nm 'X' v j) = true} ∪
      stoneRules g (stoneImages g b) (fmtV nm 'X') (fmt1 ['R'])) := by
  unfold sparseStone at h
  split at h
  · cases h
  split at h
  · cases h
  dsimp only at h
  obtain ⟨G, hG, hF⟩ := M.bind_eq_pure.1 h
  have hcoh : F.Coh ((g.verts.flatMap fun v => greaterOrEqual ((stoneImages g b v).map fun j => fmtV nm 'X' v j) 1) ++
      g.verts.flatMap (stoneVertex g (stoneImages g b) (fmtV nm 'X') stoneR)) := by
    have := foldlM_coh (g := fun c => [c]) (fun h e => addClause_coh h e) _ (ofParts_coh hG) hF
    simpa using this
  refine SaysLits.says hcoh (says_append (says_each fun v _ α => ?_) (says_stones hg _ _ _))
  rw [allTrue_geOne]
  simp

/-! ### Orders -/

theorem says_nonMin {g : Graph} (hg : g.Wf) (smart plant : Bool) : SaysLits (ordNonMin g smart plant)
    {φ | ∃ v ∈ (if plant then g.verts.dropLast else g.verts), φ = fun α => ∃ u ∈ g.verts, g.hasEdge v u = true ∧ ordLt smart α u v} := by
  unfold ordNonMin
  refine SaysLits.congr (says_map (φ := fun k α => ∃ u ∈ g.verts, g.hasEdge (g.verts.getD k 0) u = true ∧ ordLt smart α u (g.verts.getD k 0)) fun k hk α => ?_) ?_
  · have hk : k < g.verts.length := by have := List.mem_range.1 hk; omega
    have e : g.verts.getD k 0 = g.verts[k] := by simp [List.getD, hk]
    simp only [e]
    exact nonMin_clause hg smart hk α
  · intro φ
    simp only [Set.mem_ofPred_eq, List.mem_range]
    have hget : ∀ k (h : k < g.verts.length), g.verts.getD k 0 = g.verts[k] := fun k h => by simp [List.getD, h]
    constructor
    · rintro ⟨k, hk, rfl⟩
      refine ⟨g.verts.getD k 0, ?_, rfl⟩
      rw [hget k (by omega)]
      cases plant with
      | false => exact List.getElem_mem _
      | true =>
        rw [if_pos rfl, List.mem_iff_getElem]
        exact ⟨k, by simp only [List.length_dropLast]; simpa using hk, by rw [List.getElem_dropLast]⟩
    · rintro ⟨v, hv, rfl⟩
      cases plant with
      | false =>
        rw [if_neg (by simp)] at hv
        obtain ⟨k, hk, rfl⟩ := List.mem_iff_getElem.1 hv
        exact ⟨k, by simpa using hk, by rw [hget k hk]⟩
      | true =>
        rw [if_pos rfl] at hv
        obtain ⟨k, hk, rfl⟩ := List.mem_iff_getElem.1 hv
        rw [List.length_dropLast] at hk
        exact ⟨k, by simpa using hk, by rw [hget k (by omega), List.getElem_dropLast]⟩

/-- **C82.** Ordering formula: for each vertex (but, if planted, the last) "a neighbour is before it"; for each three vertices, transitivity, which is
written as "they are not in a circle" for the total and the `smart` variant; and for each two, unless `smart`, "not both before the other" and, if total, "one
before the other". -/
theorem C82_graph_ordering {g : Graph} (hg : g.Wf) {total smart plant : Bool} {knuth : Int} {F : CNF Str}
    (h : graphOrdering g total smart plant knuth = pure F) :
    Says F.vars F.clauses
      ({φ | ∃ v ∈ (if plant then g.verts.dropLast else g.verts), φ = fun α => ∃ u ∈ g.verts, g.hasEdge v u = true ∧ ordLt smart α u v} ∪
       {φ | (total = true ∨ smart = true) ∧ ∃ a ∈ g.verts, ∃ b ∈ g.verts, ∃ c ∈ g.verts, a ≠ b ∧ b ≠ c ∧ a ≠ c ∧
          φ = fun α => ¬ (ordLt smart α a b ∧ ordLt smart α b c ∧ ordLt smart α c a)} ∪
       {φ | ¬ (total = true ∨ smart = true) ∧ ∃ a ∈ g.verts, ∃ b ∈ g.verts, ∃ c ∈ g.verts, a ≠ b ∧ b ≠ c ∧ a ≠ c ∧
          (knuth = 2 → a < b ∧ c < b) ∧ (knuth = 3 → a < c ∧ b < c) ∧ φ = fun α => ordLt smart α a b → ordLt smart α b c → ordLt smart α a c} ∪
       {φ | smart = false ∧ ∃ a ∈ g.verts, ∃ b ∈ g.verts, a ≠ b ∧ φ = fun α => ¬ (ordLt smart α a b ∧ ordLt smart α b a)} ∪
       {φ | smart = false ∧ total = true ∧ ∃ a ∈ g.verts, ∃ b ∈ g.verts, a ≠ b ∧ φ = fun α => ordLt smart α a b ∨ ordLt smart α b a}) := by
  unfold graphOrdering at h
  have hlt : ∀ {α : Str → Bool} {u v}, u < v → (ordLt true α u v ↔ α (xn u v) = true) := fun h => by simp [ordLt, h]
  have hgt : ∀ {α : Str → Bool} {u v}, u < v → (ordLt true α v u ↔ α (xn u v) = false) := fun h => by simp [ordLt, Nat.not_lt.2 h.le]
  have hF : ∀ {α : Str → Bool} {u v}, (ordLt false α u v ↔ α (xn u v) = true) := by simp [ordLt]
  -- circles
  have circ : ∀ φ : (Str → Bool) → Prop, (∃ t ∈ triples g.verts, φ ∈ ({fun α => ¬ (ordLt smart α t.1 t.2.1 ∧ ordLt smart α t.2.1 t.2.2 ∧ ordLt smart α t.2.2 t.1)} ∪
        {fun α => ¬ (ordLt smart α t.1 t.2.2 ∧ ordLt smart α t.2.2 t.2.1 ∧ ordLt smart α t.2.1 t.1)} : Set _)) ↔
      ∃ a ∈ g.verts, ∃ b ∈ g.verts, ∃ c ∈ g.verts, a ≠ b ∧ b ≠ c ∧ a ≠ c ∧ φ = fun α => ¬ (ordLt smart α a b ∧ ordLt smart α b c ∧ ordLt smart α c a) := by
    intro φ
    simp only [Prod.exists, mem_triples_sorted hg.sorted, Set.mem_union, Set.mem_singleton_iff]
    constructor
    · rintro ⟨a, b, c, ⟨ha, hb, hc, h1, h2⟩, rfl | rfl⟩
      · exact ⟨a, ha, b, hb, c, hc, by omega, by omega, by omega, rfl⟩
      · exact ⟨a, ha, c, hc, b, hb, by omega, by omega, by omega, rfl⟩
    · rintro ⟨a, ha, b, hb, c, hc, h1, h2, h3, rfl⟩
      have rot : ∀ {p q r p' q' r' : Prop}, (p ∧ q ∧ r ↔ p' ∧ q' ∧ r') → (¬ (p ∧ q ∧ r) ↔ ¬ (p' ∧ q' ∧ r')) := fun h => not_congr h
      have f1 : (fun α => ¬ (ordLt smart α a b ∧ ordLt smart α b c ∧ ordLt smart α c a)) = fun α => ¬ (ordLt smart α b c ∧ ordLt smart α c a ∧ ordLt smart α a b) := by
        funext α; apply propext; tauto
      have f2 : (fun α => ¬ (ordLt smart α a b ∧ ordLt smart α b c ∧ ordLt smart α c a)) = fun α => ¬ (ordLt smart α c a ∧ ordLt smart α a b ∧ ordLt smart α b c) := by
        funext α; apply propext; tauto
      rcases Nat.lt_or_gt_of_ne h1 with l1 | l1 <;> rcases Nat.lt_or_gt_of_ne h2 with l2 | l2 <;> rcases Nat.lt_or_gt_of_ne h3 with l3 | l3
      · exact ⟨a, b, c, ⟨ha, hb, hc, l1, l2⟩, .inl rfl⟩
      · omega
      · exact ⟨a, c, b, ⟨ha, hc, hb, l3, l2⟩, .inr rfl⟩
      · exact ⟨c, a, b, ⟨hc, ha, hb, l3, l1⟩, .inl f2⟩
      · exact ⟨b, a, c, ⟨hb, ha, hc, l1, l3⟩, .inr f1⟩
      · exact ⟨b, c, a, ⟨hb, hc, ha, l2, l3⟩, .inl f1⟩
      · omega
      · exact ⟨c, b, a, ⟨hc, hb, ha, l2, l1⟩, .inr f2⟩
  have two : ∀ ψ : Nat → Nat → (Str → Bool) → Prop, (∀ a b, ψ a b = ψ b a) → ∀ φ, (∃ p ∈ pairs g.verts, φ = ψ p.1 p.2) ↔
      ∃ a ∈ g.verts, ∃ b ∈ g.verts, a ≠ b ∧ φ = ψ a b := by
    intro ψ hs φ
    simp only [Prod.exists, mem_pairs_sorted hg.sorted]
    constructor
    · rintro ⟨a, b, ⟨ha, hb, hl⟩, rfl⟩; exact ⟨a, ha, b, hb, by omega, rfl⟩
    · rintro ⟨a, ha, b, hb, hne, rfl⟩
      rcases Nat.lt_or_gt_of_ne hne with hl | hl
      · exact ⟨a, b, ⟨ha, hb, hl⟩, rfl⟩
      · exact ⟨b, a, ⟨hb, ha, hl⟩, hs a b⟩
  refine SaysLits.says (ofPartsStrict_coh h) ?_
  cases smart with
  | true =>
    have hT : SaysLits (ordTrans g total true knuth ++ ordTotal g total true) {φ | ∃ a ∈ g.verts, ∃ b ∈ g.verts, ∃ c ∈ g.verts, a ≠ b ∧ b ≠ c ∧ a ≠ c ∧
        φ = fun α => ¬ (ordLt true α a b ∧ ordLt true α b c ∧ ordLt true α c a)} := by
      simp only [ordTrans, ordTotal, if_true, List.append_nil]
      refine SaysLits.congr (says_flatMap fun t ht => SaysLits.congr (says_append (cs := [_]) (ds := [_])
        (says_one (φ := fun α => ¬ (ordLt true α t.1 t.2.2 ∧ ordLt true α t.2.2 t.2.1 ∧ ordLt true α t.2.1 t.1)) fun α => ?_)
        (says_one (φ := fun α => ¬ (ordLt true α t.1 t.2.1 ∧ ordLt true α t.2.1 t.2.2 ∧ ordLt true α t.2.2 t.1)) fun α => ?_))
        fun φ => by rw [Set.union_comm]) circ
      · have ht := (mem_triples_sorted hg.sorted (x := t.1) (y := t.2.1) (z := t.2.2)).1 ht
        obtain ⟨_, _, _, l1, l2⟩ := ht
        have l3 := l1.trans l2
        simp only [hlt l3, hgt l2, hgt l1, allTrue_cons, allTrue_nil, clauseTrue_cons, clauseTrue_nil, or_false, and_true]
        cases α (xn t.1 t.2.1) <;> cases α (xn t.2.1 t.2.2) <;> cases α (xn t.1 t.2.2) <;> simp
      · have ht := (mem_triples_sorted hg.sorted (x := t.1) (y := t.2.1) (z := t.2.2)).1 ht
        obtain ⟨_, _, _, l1, l2⟩ := ht
        have l3 := l1.trans l2
        simp only [hlt l1, hlt l2, hgt l3, allTrue_cons, allTrue_nil, clauseTrue_cons, clauseTrue_nil, or_false, and_true]
        cases α (xn t.1 t.2.1) <;> cases α (xn t.2.1 t.2.2) <;> cases α (xn t.1 t.2.2) <;> simp
    rw [List.append_assoc]
    refine SaysLits.congr (says_append (says_nonMin hg true plant) hT) fun φ => ?_
    simp only [Set.mem_union, Set.mem_ofPred_eq, or_true, true_and, not_true, false_and, or_false, Bool.true_eq_false]
  | false =>
    have h2 : SaysLits (ordTotal g total false) ({φ | ∃ a ∈ g.verts, ∃ b ∈ g.verts, a ≠ b ∧ φ = fun α => ¬ (ordLt false α a b ∧ ordLt false α b a)} ∪
        {φ | total = true ∧ φ ∈ {φ : (Str → Bool) → Prop | ∃ a ∈ g.verts, ∃ b ∈ g.verts, a ≠ b ∧ φ = fun α => ordLt false α a b ∨ ordLt false α b a}}) := by
      simp only [ordTotal, Bool.false_eq_true, if_false]
      refine says_append (SaysLits.congr (says_map (φ := fun (p : Nat × Nat) α => ¬ (ordLt false α p.1 p.2 ∧ ordLt false α p.2 p.1)) fun p _ α => ?_)
          (two (fun a b α => ¬ (ordLt false α a b ∧ ordLt false α b a)) (fun a b => by funext α; rw [and_comm])))
        (says_ite fun _ => SaysLits.congr (says_map (φ := fun (p : Nat × Nat) α => ordLt false α p.1 p.2 ∨ ordLt false α p.2 p.1) fun p _ α => ?_)
          (two (fun a b α => ordLt false α a b ∨ ordLt false α b a) (fun a b => by funext α; rw [or_comm])))
      · simp only [hF, clauseTrue_cons, clauseTrue_nil, or_false]
        cases α (xn p.1 p.2) <;> cases α (xn p.2 p.1) <;> simp
      · simp only [hF, clauseTrue_cons, clauseTrue_nil, or_false]
    cases total with
    | true =>
      have hT : SaysLits (ordTrans g true false knuth) {φ | ∃ a ∈ g.verts, ∃ b ∈ g.verts, ∃ c ∈ g.verts, a ≠ b ∧ b ≠ c ∧ a ≠ c ∧
          φ = fun α => ¬ (ordLt false α a b ∧ ordLt false α b c ∧ ordLt false α c a)} := by
        simp only [ordTrans, Bool.false_eq_true, if_false, if_true]
        refine SaysLits.congr (says_flatMap fun t ht => says_append (cs := [_]) (ds := [_]) (says_one fun α => ?_) (says_one fun α => ?_)) circ
        · simp only [hF, allTrue_cons, allTrue_nil, clauseTrue_cons, clauseTrue_nil, or_false, and_true]
          cases α (xn t.1 t.2.1) <;> cases α (xn t.2.1 t.2.2) <;> cases α (xn t.2.2 t.1) <;> simp
        · simp only [hF, allTrue_cons, allTrue_nil, clauseTrue_cons, clauseTrue_nil, or_false, and_true]
          cases α (xn t.1 t.2.2) <;> cases α (xn t.2.2 t.2.1) <;> cases α (xn t.2.1 t.1) <;> simp
      refine SaysLits.congr (says_append (says_append (says_nonMin hg false plant) hT) h2) fun φ => ?_
      simp only [Set.mem_union, Set.mem_ofPred_eq, true_or, true_and, not_true, false_and, or_false, or_assoc]
    | false =>
      have hT : SaysLits (ordTrans g false false knuth) {φ | ∃ a ∈ g.verts, ∃ b ∈ g.verts, ∃ c ∈ g.verts, a ≠ b ∧ b ≠ c ∧ a ≠ c ∧
          (knuth = 2 → a < b ∧ c < b) ∧ (knuth = 3 → a < c ∧ b < c) ∧ φ = fun α => ordLt false α a b → ordLt false α b c → ordLt false α a c} := by
        simp only [ordTrans, Bool.false_eq_true, if_false]
        refine SaysLits.congr (says_map (φ := fun t α => ordLt false α t.1 t.2.1 → ordLt false α t.2.1 t.2.2 → ordLt false α t.1 t.2.2) fun t ht α => ?_) fun φ => ?_
        · simp only [hF, clauseTrue_cons, clauseTrue_nil, or_false]
          cases α (xn t.1 t.2.1) <;> cases α (xn t.2.1 t.2.2) <;> simp
        · simp only [Set.mem_ofPred_eq, List.mem_filter, Prod.exists, mem_permTriples hg.verts_nodup]
          constructor
          · rintro ⟨a, b, c, ⟨⟨ha, hb, hc, h1, h2, h3⟩, hk⟩, rfl⟩
            simp only [Bool.and_eq_true, Bool.not_eq_true', Bool.and_eq_false_iff, decide_eq_false_iff_not, Bool.or_eq_false_iff] at hk
            exact ⟨a, ha, b, hb, c, hc, h1, h2, h3, fun e => by omega, fun e => by omega, rfl⟩
          · rintro ⟨a, ha, b, hb, c, hc, h1, h2, h3, k2, k3, rfl⟩
            refine ⟨a, b, c, ⟨⟨ha, hb, hc, h1, h2, h3⟩, ?_⟩, rfl⟩
            simp only [Bool.and_eq_true, Bool.not_eq_true', Bool.and_eq_false_iff, decide_eq_false_iff_not, Bool.or_eq_false_iff]
            constructor
            · by_cases e : knuth = 2
              · have := k2 e; right; omega
              · exact .inl e
            · by_cases e : knuth = 3
              · have := k3 e; right; omega
              · exact .inl e
      refine SaysLits.congr (says_append (says_append (says_nonMin hg false plant) hT) h2) fun φ => ?_
      simp only [Set.mem_union, Set.mem_ofPred_eq, Bool.false_eq_true, or_false, false_and, not_false_eq_true, true_and, and_false]

end NDP.Cnfgen
