import Verif.Cnfgen.Models2
import Verif.Cnfgen.Subgraph
import Mathlib.Tactic.IntervalCases
/-
  C67, continued: pebbling, stones, dominating sets, subgraphs and cliques.
-/
namespace NDP.Cnfgen
open NDP

/-- **C67.** Pebbling: the models pebble a vertex when all its predecessors are pebbled (sources in particular), and no sink. -/
theorem C67_pebbling {V : Type} [DecidableEq V] {g : Digraph V} (hg : g.Wf) {F : CNF V} (h : pebbling g = pure F) :
    (∀ x, x ∈ F.vars ↔ x ∈ g.verts) ∧
    ∀ α, Holds F.vars F.clauses α ↔
      (∀ v ∈ g.verts, (∀ p, (p, v) ∈ g.edges → α p = true) → α v = true) ∧
      ∀ v ∈ g.verts, (∀ w, (v, w) ∉ g.edges) → α v = false := by
  unfold pebbling at h
  split at h
  · refine ⟨ofParts_vars h, fun α => ?_⟩
    rw [(ofParts_coh h).holds, allTrue_flatMap]
    have hsink : ∀ v, g.isSink v = true ↔ ∀ w, (v, w) ∉ g.edges := fun v => Digraph.isSink_iff hg
    have hv : ∀ v, AllTrue α (pebVertex g v) ↔ ((∀ p, (p, v) ∈ g.edges → α p = true) → α v = true) ∧ ((∀ w, (v, w) ∉ g.edges) → α v = false) := by
      intro v
      unfold pebVertex
      rw [allTrue_cons, clauseTrue_append]
      refine and_congr ?_ ?_
      · rw [show ClauseTrue α [(true, v)] ↔ α v = true by simp [clauseTrue_cons, clauseTrue_nil]]
        simp only [ClauseTrue, List.mem_map]
        constructor
        · rintro (⟨_, ⟨p, hp, rfl⟩, ht⟩ | ht) H
          · have := H p ((Digraph.mem_preds hg).1 hp)
            simp [this] at ht
          · exact ht
        · intro H
          by_cases hp : ∀ p, (p, v) ∈ g.edges → α p = true
          · exact .inr (H hp)
          · push Not at hp
            obtain ⟨p, hp, hn⟩ := hp
            exact .inl ⟨_, ⟨p, (Digraph.mem_preds hg).2 hp, rfl⟩, by simpa using hn⟩
      · by_cases hs : g.isSink v = true
        · rw [if_pos hs]
          simp only [allTrue_cons, allTrue_nil, clauseTrue_cons, clauseTrue_nil, or_false, and_true]
          exact ⟨fun H _ => H, fun H => H ((hsink v).1 hs)⟩
        · rw [if_neg hs]
          simp only [allTrue_nil, true_iff]
          exact fun H => absurd ((hsink v).2 H) hs
    simp only [hv]
    exact ⟨fun H => ⟨fun v hv => (H v hv).1, fun v hv => (H v hv).2⟩, fun H v hv => ⟨H.1 v hv, H.2 v hv⟩⟩
  · cases h

/-- What the clauses of the stones of a vertex say: with stone `j` on the vertex and a red stone, other than `j`, on each predecessor, `j` is red;
and a stone on a sink is not red. -/
def StoneRule {V : Type} (edges : List (V × V)) (images : V → List Nat) (on : V → Nat → Prop) (red : Nat → Prop) (v : V) : Prop :=
  (∀ j ∈ images v, on v j → (∀ p, (p, v) ∈ edges → ∃ s ∈ images p, s ≠ j ∧ on p s ∧ red s) → red j) ∧
  ((∀ w, (v, w) ∉ edges) → ∀ j ∈ images v, on v j → ¬ red j)

theorem stoneVertex_true {V : Type} [DecidableEq V] {g : Digraph V} (hg : g.Wf) (images : V → List Nat) (P : V → Nat → Str) (R : Nat → Str)
    (α : Str → Bool) (v : V) : AllTrue α (stoneVertex g images P R v) ↔
      StoneRule g.edges images (fun v j => α (P v j) = true) (fun j => α (R j) = true) v := by
  have hsink : g.isSink v = true ↔ ∀ w, (v, w) ∉ g.edges := Digraph.isSink_iff hg
  unfold stoneVertex StoneRule
  rw [allTrue_append]
  refine and_congr ?_ ?_
  · rw [allTrue_flatMap]
    refine forall₂_congr fun j hj => ?_
    unfold stoneStep
    rw [allTrue_map]
    constructor
    · intro H hp hall
      have hall' : ∀ p ∈ g.preds v, ∃ s ∈ images p, s ≠ j ∧ α (P p s) = true ∧ α (R s) = true := fun p hp => hall p ((Digraph.mem_preds hg).1 hp)
      choose! s hs using hall'
      have hmem : (g.preds v).map s ∈ product ((g.preds v).map fun p => (images p).filter (· ≠ j)) := by
        rw [mem_product, List.forall₂_map_left_iff, List.forall₂_map_right_iff, List.forall₂_same]
        intro p hp
        exact List.mem_filter.2 ⟨(hs p hp).1, by simpa using (hs p hp).2.1⟩
      have := H _ hmem
      simp only [clauseTrue_append] at this
      rcases this with ((⟨l, hl, ht⟩ | ht) | ⟨l, hl, ht⟩) | ht
      · rw [List.zipWith_map_right, List.zipWith_self] at hl
        obtain ⟨p, hp, rfl⟩ := List.mem_map.1 hl
        simp [(hs p hp).2.2.1] at ht
      · simp [clauseTrue_cons, clauseTrue_nil, hp] at ht
      · obtain ⟨x, hx, rfl⟩ := List.mem_map.1 hl
        obtain ⟨p, hp, rfl⟩ := List.mem_map.1 (mem_uniqify.1 hx)
        simp [(hs p hp).2.2.2] at ht
      · simpa [clauseTrue_cons, clauseTrue_nil] using ht
    · intro H t ht
      obtain ⟨hf, hj'⟩ := mem_product_preds ht
      simp only [clauseTrue_append]
      by_contra hcon
      simp only [not_or] at hcon
      obtain ⟨⟨⟨h1, h2⟩, h3⟩, h4⟩ := hcon
      simp only [clauseTrue_cons, clauseTrue_nil, or_false, Bool.not_eq_false] at h2 h4
      refine h4 (H h2 fun p hp => ?_)
      have hp := (Digraph.mem_preds hg).2 hp
      -- the stone of `p` in the tuple
      have : ∀ {ps : List V} {t : List Nat}, List.Forall₂ (fun s p => s ∈ images p) t ps →
          (∀ l ∈ List.zipWith (fun p s => ((false, P p s) : Lit Str)) ps t, ¬ α l.2 = l.1) → ∀ p ∈ ps, ∃ s ∈ images p, s ∈ t ∧ α (P p s) = true := by
        intro ps t hf
        induction hf with
        | nil => intro _ p hp; simp at hp
        | cons hs _ ih =>
          intro hz p hp
          rw [List.zipWith_cons_cons] at hz
          rcases List.mem_cons.1 hp with rfl | hp
          · exact ⟨_, hs, by simp, by simpa using hz _ List.mem_cons_self⟩
          · obtain ⟨s, a, b, c⟩ := ih (fun l hl => hz l (List.mem_cons_of_mem _ hl)) p hp
            exact ⟨s, a, List.mem_cons_of_mem _ b, c⟩
      obtain ⟨s, a, b, c⟩ := this hf (fun l hl e => h1 ⟨l, hl, e⟩) p hp
      refine ⟨s, a, fun e => hj' (e ▸ b), c, ?_⟩
      by_contra hne
      exact h3 ⟨_, List.mem_map.2 ⟨s, mem_uniqify.2 b, rfl⟩, by simpa using hne⟩
  · by_cases hs : g.isSink v = true
    · rw [if_pos hs, allTrue_map]
      simp only [clauseTrue_cons, clauseTrue_nil, or_false]
      constructor
      · intro H _ j hj h1 h2
        have := H j hj; simp [h1, h2] at this
      · intro H j hj
        have := H (hsink.1 hs) j hj
        cases h1 : α (P v j) <;> cases h2 : α (R j) <;> simp_all
    · rw [if_neg hs]
      simp only [allTrue_nil, true_iff]
      exact fun H => absurd (hsink.2 H) hs

/-- **C67.** Stone formula. -/
theorem C67_stone {V : Type} [DecidableEq V] {nm : V → Str} {g : Digraph V} (hg : g.Wf) {nstones : Int} {F : CNF Str}
    (h : stone nm g nstones = pure F) :
    (∀ x, x ∈ F.vars ↔ (∃ v ∈ g.verts, ∃ j, (1 ≤ j ∧ j ≤ nstones.toNat) ∧ x = fmtV nm 'P' v j) ∨ ∃ j, (1 ≤ j ∧ j ≤ nstones.toNat) ∧ x = fmt1 ['R'] j) ∧
    ∀ α, Holds F.vars F.clauses α ↔
      (∀ v ∈ g.verts, ∃ j, (1 ≤ j ∧ j ≤ nstones.toNat) ∧ α (fmtV nm 'P' v j) = true) ∧
      ∀ v ∈ g.verts, StoneRule g.edges (fun _ => oneTo nstones.toNat) (fun v j => α (fmtV nm 'P' v j) = true) (fun j => α (fmt1 ['R'] j) = true) v := by
  unfold stone at h
  split at h
  · cases h
  split at h
  · cases h
  dsimp only at h
  refine ⟨fun x => ?_, fun α => ?_⟩
  · rw [ofParts_vars h]
    simp only [List.mem_append, List.mem_flatMap, List.mem_map, mem_oneTo, stoneR, eq_comm]
  · rw [(ofParts_coh h).holds, allTrue_append, allTrue_map, allTrue_flatMap]
    refine and_congr (forall₂_congr fun v _ => ?_) (forall₂_congr fun v _ => stoneVertex_true hg _ _ _ α v)
    simp only [ClauseTrue, List.mem_map]
    constructor
    · rintro ⟨_, ⟨j, hj, rfl⟩, ht⟩; exact ⟨j, mem_oneTo.1 hj, ht⟩
    · rintro ⟨j, hj, ht⟩; exact ⟨_, ⟨j, mem_oneTo.2 hj, rfl⟩, ht⟩

/-- **C67.** Sparse stone formula: the stones allowed on a vertex are those the bipartite graph joins to it. -/
theorem C67_sparse_stone {V : Type} [DecidableEq V] {nm : V → Str} {g : Digraph V} (hg : g.Wf) {b : BiGraph} {F : CNF Str}
    (h : sparseStone nm g b = pure F) :
    (∀ x, x ∈ F.vars ↔ (∃ v ∈ g.verts, ∃ j ∈ stoneImages g b v, x = fmtV nm 'X' v j) ∨ ∃ j, (1 ≤ j ∧ j ≤ b.right.length) ∧ x = fmt1 ['R'] j) ∧
    ∀ α, Holds F.vars F.clauses α ↔
      (∀ v ∈ g.verts, ∃ j ∈ stoneImages g b v, α (fmtV nm 'X' v j) = true) ∧
      ∀ v ∈ g.verts, StoneRule g.edges (stoneImages g b) (fun v j => α (fmtV nm 'X' v j) = true) (fun j => α (fmt1 ['R'] j) = true) v := by
  unfold sparseStone at h
  split at h
  · cases h
  split at h
  · cases h
  dsimp only at h
  obtain ⟨G, hG, hF⟩ := M.bind_eq_pure.1 h
  have hv : F.vars = G.vars := by
    unfold CNF.addAll at hF
    exact foldlM_inv (P := fun K : CNF Str => K.vars = G.vars) (fun hP e => (addClause_strict_vars e).trans hP) _ rfl hF
  have hcoh : F.Coh ((g.verts.flatMap fun v => greaterOrEqual ((stoneImages g b v).map fun j => fmtV nm 'X' v j) 1) ++
      g.verts.flatMap (stoneVertex g (stoneImages g b) (fmtV nm 'X') stoneR)) := by
    have := foldlM_coh (g := fun c => [c]) (fun h e => addClause_coh h e) _ (ofParts_coh hG) hF
    simpa using this
  refine ⟨fun x => ?_, fun α => ?_⟩
  · rw [hv, ofParts_vars hG]
    simp only [List.mem_append, List.mem_flatMap, List.mem_map, mem_oneTo, stoneR, eq_comm]
  · rw [hcoh.holds, allTrue_append, allTrue_flatMap, allTrue_flatMap]
    refine and_congr (forall₂_congr fun v _ => ?_) (forall₂_congr fun v _ => stoneVertex_true hg _ _ _ α v)
    rw [allTrue_geOne]
    simp

theorem addAll_false_vars {V : Type} [DecidableEq V] {vs : List V} {cs : List (List (Lit V))} {F : CNF V} (h : CNF.ofPartsLoose vs cs = pure F)
    (hk : ∀ c ∈ cs, ∀ l ∈ c, l.2 ∈ vs) : (∀ x, x ∈ F.vars ↔ x ∈ vs) ∧ F.Coh cs := by
  unfold CNF.ofPartsLoose at h
  constructor
  · intro x
    rw [addAll_vars h, CNF.mem_addVariables]
    simp only [List.not_mem_nil, false_or, or_iff_left_iff_imp]
    rintro ⟨c, hc, hx⟩
    obtain ⟨l, hl, rfl⟩ := List.mem_map.1 hx
    exact hk c hc l hl
  · have := foldlM_coh (g := fun c => [c]) (fun h e => addClause_coh h e) _ (CNF.coh_empty.addVariables (vs := vs)) h
    simpa using this

theorem ds_known {g : Graph} (hg : g.Wf) (b : Bool) (d : Nat) : ∀ c ∈ dsClauses b g d, ∀ l ∈ c, l.2 ∈ dsVars g d := by
  have hD : ∀ v ∈ g.verts, dsD v ∈ dsVars g d := fun v hv => List.mem_append_left _ (List.mem_map_of_mem hv)
  have hM : ∀ v ∈ g.verts, ∀ i ∈ oneTo d, dsM v i ∈ dsVars g d := fun v hv i hi =>
    List.mem_append_right _ (List.mem_flatMap.2 ⟨i, hi, List.mem_map.2 ⟨v, hv, rfl⟩⟩)
  have hcases : ∀ c ∈ dsClauses b g d, ∀ l ∈ c, (∃ v ∈ g.verts, l.2 = dsD v) ∨ ∃ v ∈ g.verts, ∃ i ∈ oneTo d, l.2 = dsM v i := by
    intro c hc l hl
    unfold dsClauses at hc
    simp only [List.mem_append] at hc
    rcases hc with ((hc | hc) | hc) | hc
    · unfold dsIndex at hc
      split at hc
      · obtain ⟨⟨u, v⟩, hp, hc⟩ := List.mem_flatMap.1 hc
        obtain ⟨i, hi, rfl⟩ := List.mem_map.1 hc
        obtain ⟨hu, hv, _⟩ := (mem_pairs_sorted hg.sorted).1 hp
        simp only [List.mem_cons, List.not_mem_nil, or_false] at hl
        rcases hl with rfl | rfl | rfl | rfl
        · exact .inl ⟨u, hu, rfl⟩
        · exact .inl ⟨v, hv, rfl⟩
        · exact .inr ⟨u, hu, i, hi, rfl⟩
        · exact .inr ⟨v, hv, i, hi, rfl⟩
      · obtain ⟨i, hi, hc⟩ := List.mem_flatMap.1 hc
        obtain ⟨v, hv, e⟩ := List.mem_map.1 ((mem_inequality hc).subset (List.mem_map_of_mem hl))
        exact .inr ⟨v, hv, i, hi, e.symm⟩
    · unfold dsOrder at hc
      split at hc
      · obtain ⟨v, hv, hc⟩ := List.mem_flatMap.1 hc
        obtain ⟨⟨i, j⟩, hp, rfl⟩ := List.mem_map.1 hc
        obtain ⟨hi, hj, _⟩ := oneTo_pairs.1 hp
        simp only [List.mem_cons, List.not_mem_nil, or_false] at hl
        rcases hl with rfl | rfl | rfl
        · exact .inl ⟨v, hv, rfl⟩
        · exact .inr ⟨v, hv, i, hi, rfl⟩
        · exact .inr ⟨v, hv, j, hj, rfl⟩
      · obtain ⟨⟨i, j⟩, hp, hc⟩ := List.mem_flatMap.1 hc
        obtain ⟨⟨u, v⟩, hq, rfl⟩ := List.mem_map.1 hc
        obtain ⟨hi, hj, hij⟩ := (mem_replPairs_sorted (oneTo_sorted d)).1 hp
        obtain ⟨hu, hv, huv⟩ := (mem_pairs_sorted hg.sorted).1 hq
        dsimp only at hl
        rw [max_eq_right huv.le, min_eq_left huv.le, max_eq_right hij, min_eq_left hij] at hl
        simp only [List.mem_cons, List.not_mem_nil, or_false] at hl
        rcases hl with rfl | rfl
        · exact .inr ⟨v, hv, i, hi, rfl⟩
        · exact .inr ⟨u, hu, j, hj, rfl⟩
    · unfold dsLink at hc
      rcases List.mem_append.1 hc with hc | hc
      · split at hc
        · simp at hc
        · obtain ⟨i, hi, hc⟩ := List.mem_flatMap.1 hc
          obtain ⟨v, hv, rfl⟩ := List.mem_map.1 hc
          simp only [List.mem_cons, List.not_mem_nil, or_false] at hl
          rcases hl with rfl | rfl
          · exact .inr ⟨v, hv, i, hi, rfl⟩
          · exact .inl ⟨v, hv, rfl⟩
      · obtain ⟨v, hv, rfl⟩ := List.mem_map.1 hc
        rcases List.mem_cons.1 hl with rfl | hl
        · exact .inl ⟨v, hv, rfl⟩
        · obtain ⟨i, hi, rfl⟩ := List.mem_map.1 hl
          exact .inr ⟨v, hv, i, hi, rfl⟩
    · obtain ⟨N, hN, rfl⟩ := List.mem_map.1 hc
      obtain ⟨v, hv, rfl⟩ := mem_neighborhoods.1 hN
      obtain ⟨u, hu, rfl⟩ := List.mem_map.1 hl
      rcases mem_closedNbhd.1 hu with rfl | ⟨h1, _⟩
      · exact .inl ⟨_, hv, rfl⟩
      · exact .inl ⟨_, h1, rfl⟩
  intro c hc l hl
  rcases hcases c hc l hl with ⟨v, hv, e⟩ | ⟨v, hv, i, hi, e⟩
  · rw [e]; exact hD v hv
  · rw [e]; exact hM v hv i hi

/-- The set given by the variables `x` dominates. -/
def Dominates (g : Graph) (inSet : Nat → Prop) : Prop := ∀ v ∈ g.verts, inSet v ∨ ∃ u ∈ g.verts, g.hasEdge u v = true ∧ inSet u

theorem ds_dom {g : Graph} (α : Str → Bool) : AllTrue α ((neighborhoods g).map fun N => N.map fun v => (true, dsD v)) ↔
    Dominates g fun v => α (dsD v) = true := by
  rw [allTrue_map]
  constructor
  · intro H v hv
    obtain ⟨l, hl, ht⟩ := H _ (mem_neighborhoods.2 ⟨v, hv, rfl⟩)
    obtain ⟨u, hu, rfl⟩ := List.mem_map.1 hl
    rcases mem_closedNbhd.1 hu with rfl | ⟨h1, h2⟩
    · exact .inl ht
    · exact .inr ⟨u, h1, h2, ht⟩
  · intro H N hN
    obtain ⟨v, hv, rfl⟩ := mem_neighborhoods.1 hN
    rcases H v hv with h | ⟨u, h1, h2, ht⟩
    · exact ⟨_, List.mem_map.2 ⟨v, mem_closedNbhd.2 (.inl rfl), rfl⟩, h⟩
    · exact ⟨_, List.mem_map.2 ⟨u, mem_closedNbhd.2 (.inr ⟨h1, h2⟩), rfl⟩, ht⟩

theorem ds_vars {g : Graph} {d : Nat} (x : Str) : x ∈ dsVars g d ↔
    (∃ v ∈ g.verts, x = fmt1 ['x'] v) ∨ ∃ v ∈ g.verts, ∃ i, (1 ≤ i ∧ i ≤ d) ∧ x = fmt2 ['g'] v i := by
  unfold dsVars dsD dsM
  simp only [List.mem_append, List.mem_map, List.mem_flatMap, mem_oneTo]
  refine or_congr ⟨fun ⟨v, a, b⟩ => ⟨v, a, b.symm⟩, fun ⟨v, a, b⟩ => ⟨v, a, b.symm⟩⟩ ⟨?_, ?_⟩
  · rintro ⟨i, hi, v, hv, rfl⟩; exact ⟨v, hv, i, hi, rfl⟩
  · rintro ⟨v, hv, i, hi, rfl⟩; exact ⟨i, hi, v, hv, rfl⟩

theorem ds_some {g : Graph} (d : Nat) (α : Str → Bool) : AllTrue α (g.verts.map fun v => (false, dsD v) :: (oneTo d).map fun i => (true, dsM v i)) ↔
    ∀ v ∈ g.verts, α (dsD v) = true → ∃ i, (1 ≤ i ∧ i ≤ d) ∧ α (dsM v i) = true := by
  rw [allTrue_map]
  refine forall₂_congr fun v _ => ?_
  rw [clauseTrue_cons]
  constructor
  · rintro (h | ⟨l, hl, ht⟩) hD
    · simp [hD] at h
    · obtain ⟨i, hi, rfl⟩ := List.mem_map.1 hl
      exact ⟨i, mem_oneTo.1 hi, ht⟩
  · intro H
    cases hD : α (dsD v) with
    | false => exact .inl rfl
    | true =>
      obtain ⟨i, hi, ht⟩ := H hD
      exact .inr ⟨_, List.mem_map.2 ⟨i, mem_oneTo.2 hi, rfl⟩, ht⟩

/-- **C67.** Dominating set, plain variant: the model is a set of vertices (`x`) that dominates, and a table (`g`) of which vertex of the set has
which number from 1 to `d`: only vertices of the set have one, all of them have, and larger vertices have larger numbers. -/
theorem C67_dominating_set {g : Graph} (hg : g.Wf) {d : Nat} {F : CNF Str} (h : dominatingSet g d false = pure F) :
    (∀ x, x ∈ F.vars ↔ (∃ v ∈ g.verts, x = fmt1 ['x'] v) ∨ ∃ v ∈ g.verts, ∃ i, (1 ≤ i ∧ i ≤ d) ∧ x = fmt2 ['g'] v i) ∧
    ∀ α, Holds F.vars F.clauses α ↔
      Dominates g (fun v => α (fmt1 ['x'] v) = true) ∧
      (∀ v ∈ g.verts, α (fmt1 ['x'] v) = true ↔ ∃ i, (1 ≤ i ∧ i ≤ d) ∧ α (fmt2 ['g'] v i) = true) ∧
      (∀ u ∈ g.verts, ∀ v ∈ g.verts, u < v → ∀ i j, (1 ≤ i ∧ i ≤ d) → (1 ≤ j ∧ j ≤ d) →
        α (fmt2 ['g'] u i) = true → α (fmt2 ['g'] v j) = true → i < j) := by
  obtain ⟨hv, hc⟩ := addAll_false_vars h (ds_known hg false d)
  refine ⟨fun x => (hv x).trans (ds_vars x), fun α => ?_⟩
  rw [hc.holds]
  unfold dsClauses dsIndex dsOrder dsLink
  simp only [Bool.false_eq_true, if_false, allTrue_append, ds_dom, ds_some]
  simp only [allTrue_flatMap, allTrue_leOne α _ _ hg.verts_nodup, allTrue_map, Prod.forall, mem_pairs_sorted hg.sorted,
    mem_replPairs_sorted (oneTo_sorted d), clauseTrue_cons, clauseTrue_nil, or_false, mem_oneTo]
  constructor
  · rintro ⟨⟨⟨_, hO⟩, hL, hS⟩, hD⟩
    refine ⟨hD, fun v hv => ⟨hS v hv, fun ⟨i, hi, ht⟩ => ?_⟩, ?_⟩
    · have ht : α (dsM v i) = true := ht
      have := hL i hi v hv
      show α (dsD v) = true
      simpa [ht] using this
    · intro u hu v hv huv i j hi hj h1 h2
      by_contra hcon
      have hji : j ≤ i := by omega
      have := hO j i ⟨hj, hi, hji⟩ u v ⟨hu, hv, huv⟩
      rw [max_eq_right huv.le, min_eq_left huv.le, max_eq_right hji, min_eq_left hji] at this
      have h1 : α (dsM u i) = true := h1
      have h2 : α (dsM v j) = true := h2
      simp [h1, h2] at this
  · rintro ⟨hD, hS, hO⟩
    refine ⟨⟨⟨?_, ?_⟩, ?_, fun v hv => (hS v hv).1⟩, hD⟩
    · intro i hi u hu v hv h1 h2
      by_contra hne
      rcases Nat.lt_or_gt_of_ne hne with hl | hl
      · have := hO u hu v hv hl i i hi hi h1 h2; omega
      · have := hO v hv u hu hl i i hi hi h2 h1; omega
    · rintro i j ⟨hi, hj, hij⟩ u v ⟨hu, hv, huv⟩
      rw [max_eq_right huv.le, min_eq_left huv.le, max_eq_right hij, min_eq_left hij]
      by_contra hcon
      simp only [not_or, Bool.not_eq_false] at hcon
      have := hO u hu v hv huv j i hj hi hcon.2 hcon.1
      omega
    · intro i hi v hv
      cases hm : α (dsM v i) with
      | false => exact .inl rfl
      | true => exact .inr ((hS v hv).2 ⟨i, hi, hm⟩)

/-- **C67.** Dominating set, alternative variant: the set dominates, and its vertices have one number each, different ones. -/
theorem C67_dominating_set_alternative {g : Graph} (hg : g.Wf) {d : Nat} {F : CNF Str} (h : dominatingSet g d true = pure F) :
    (∀ x, x ∈ F.vars ↔ (∃ v ∈ g.verts, x = fmt1 ['x'] v) ∨ ∃ v ∈ g.verts, ∃ i, (1 ≤ i ∧ i ≤ d) ∧ x = fmt2 ['g'] v i) ∧
    ∀ α, Holds F.vars F.clauses α ↔
      Dominates g (fun v => α (fmt1 ['x'] v) = true) ∧
      ∃ f : Nat → Nat, (∀ v ∈ g.verts, α (fmt1 ['x'] v) = true → (1 ≤ f v ∧ f v ≤ d) ∧
          ∀ i, 1 ≤ i ∧ i ≤ d → (α (fmt2 ['g'] v i) = true ↔ i = f v)) ∧
        ∀ u ∈ g.verts, ∀ v ∈ g.verts, u ≠ v → α (fmt1 ['x'] u) = true → α (fmt1 ['x'] v) = true → f u ≠ f v := by
  obtain ⟨hv, hc⟩ := addAll_false_vars h (ds_known hg true d)
  refine ⟨fun x => (hv x).trans (ds_vars x), fun α => ?_⟩
  rw [hc.holds]
  unfold dsClauses dsIndex dsOrder dsLink
  simp only [if_true, allTrue_append, ds_dom, ds_some]
  simp only [allTrue_flatMap, allTrue_map, Prod.forall, mem_pairs_sorted hg.sorted, oneTo_pairs,
    clauseTrue_cons, clauseTrue_nil, or_false, mem_oneTo, allTrue_nil, true_and]
  constructor
  · rintro ⟨⟨⟨hI, hO⟩, hS⟩, hD⟩
    refine ⟨hD, ?_⟩
    choose! f hf using hS
    refine ⟨f, fun v hv hx => ⟨(hf v hv hx).1, fun i hi => ⟨fun ht => ?_, fun e => e ▸ (hf v hv hx).2⟩⟩, ?_⟩
    · by_contra hne
      have hx : α (dsD v) = true := hx
      have ht : α (dsM v i) = true := ht
      obtain ⟨h1, h2⟩ := hf v hv hx
      rcases Nat.lt_or_gt_of_ne hne with hl | hl
      · have := hO v hv i (f v) ⟨hi, h1, hl⟩; simp [hx, ht, h2] at this
      · have := hO v hv (f v) i ⟨h1, hi, hl⟩; simp [hx, ht, h2] at this
    · intro u hu v hv hne h1 h2 e
      have h1 : α (dsD u) = true := h1
      have h2 : α (dsD v) = true := h2
      obtain ⟨a, b⟩ := hf u hu h1
      obtain ⟨_, c⟩ := hf v hv h2
      rw [← e] at c
      rcases Nat.lt_or_gt_of_ne hne with hl | hl
      · have := hI u v ⟨hu, hv, hl⟩ (f u) a; simp [h1, h2, b, c] at this
      · have := hI v u ⟨hv, hu, hl⟩ (f u) a; simp [h1, h2, b, c] at this
  · rintro ⟨hD, f, hf, hne⟩
    refine ⟨⟨⟨?_, ?_⟩, ?_⟩, hD⟩
    · rintro u v ⟨hu, hv, hl⟩ i hi
      by_contra hcon
      simp only [not_or, Bool.not_eq_false] at hcon
      obtain ⟨a, b, c, e⟩ := hcon
      exact hne u hu v hv (by omega) a b (by rw [← ((hf u hu a).2 i hi).1 c, ← ((hf v hv b).2 i hi).1 e])
    · rintro v hv i j ⟨hi, hj, hl⟩
      by_contra hcon
      simp only [not_or, Bool.not_eq_false] at hcon
      obtain ⟨a, b, c⟩ := hcon
      have := ((hf v hv a).2 i hi).1 b
      have := ((hf v hv a).2 j hj).1 c
      omega
    · intro v hv a
      obtain ⟨h1, h2⟩ := hf v hv a
      exact ⟨f v, h1, (h2 _ h1).2 rfl⟩

/-- Whether template number `i` of `n` is switched on: the only one always; the first of two when `c` is false, the second when it is true; of
three or more, those whose `c_i` is false. -/
def SwitchedOn (α : Str → Bool) (n i : Nat) : Prop :=
  n = 1 ∨ (n = 2 ∧ (i = 0 ↔ α ['c'] = false)) ∨ (3 ≤ n ∧ α (fmt1 ['c'] i) = false)

theorem addAll_strict_vars {V : Type} [DecidableEq V] {cs : List (List (Lit V))} {F G : CNF V} (h : F.addAll true cs = pure G) : G.vars = F.vars := by
  unfold CNF.addAll at h
  exact foldlM_inv (P := fun K : CNF V => K.vars = F.vars) (fun hP e => (addClause_strict_vars e).trans hP) _ rfl h

/-- **C67.** The variables of the subgraph formula: the selectors (`c` for two templates, `c_0`, `c_1`, … for three and more) and the placement. -/
theorem C67_subgraph_vars {g : Graph} {ts : List Graph} (ht : ts ≠ []) {sym : Bool} {F : CNF Str} (h : subgraph g ts sym = pure F) (x : Str) :
    x ∈ F.vars ↔ (ts.length = 2 ∧ x = ['c']) ∨ (3 ≤ ts.length ∧ ∃ i < ts.length, x = fmt1 ['c'] i) ∨
      ∃ i j, i < maxOrder ts ∧ j < g.verts.length ∧ x = fmt2 ['S'] i j := by
  unfold subgraph at h
  rw [if_neg (by simpa using ht)] at h
  dsimp only at h
  obtain ⟨F1, h1, h⟩ := M.bind_eq_pure.1 h
  obtain ⟨F2, h2, h3⟩ := M.bind_eq_pure.1 h
  have hlen : 1 ≤ ts.length := by have := List.length_pos_iff.2 ht; omega
  rw [addAll_strict_vars h3, addAll_strict_vars h2, CNF.mem_addVariables, addAll_strict_vars h1, CNF.mem_addVariables]
  have e1 : x ∈ selectors ts.length ↔ (ts.length = 2 ∧ x = ['c']) ∨ (3 ≤ ts.length ∧ ∃ i < ts.length, x = fmt1 ['c'] i) := by
    unfold selectors
    split
    · simp; omega
    · split
      · rename_i h2; simp [h2]
      · rename_i h1 h2
        have h3 : 3 ≤ ts.length := by omega
        simp only [List.mem_map, List.mem_range, h2, false_and, false_or, h3, true_and]
        exact ⟨fun ⟨v, a, b⟩ => ⟨v, a, b.symm⟩, fun ⟨v, a, b⟩ => ⟨v, a, b.symm⟩⟩
  have e2 : x ∈ (subMapping (maxOrder ts) g.verts.length sym).allVars ↔ ∃ i j, i < maxOrder ts ∧ j < g.verts.length ∧ x = fmt2 ['S'] i j := by
    simp only [UnaryMapping.allVars, subMapping, UnaryMapping.full, List.mem_flatMap, List.mem_map, List.mem_range, subVar]
    constructor
    · rintro ⟨i, hi, j, hj, rfl⟩; exact ⟨i, j, hi, hj, rfl⟩
    · rintro ⟨i, j, hi, hj, rfl⟩; exact ⟨i, hi, j, hj, rfl⟩
  rw [e1, e2]
  simp [or_assoc]

/-- **C67.** Subgraph formula: a model places (`S`) as many positions as the largest template has, differently, in order if `symmetric`; each
template switched on fits; of three or more, all but one are switched on. -/
theorem C67_subgraph {g : Graph} {ts : List Graph} (ht : ts ≠ []) {sym : Bool} {F : CNF Str} (h : subgraph g ts sym = pure F) (α : Str → Bool) :
    Holds F.vars F.clauses α ↔
      ∃ f : Nat → Nat, (∀ i < maxOrder ts, ∀ j < g.verts.length, (α (fmt2 ['S'] i j) = true ↔ j = f i)) ∧
        Placement (maxOrder ts) g.verts.length sym f ∧
        (3 ≤ ts.length → ∃ i < ts.length, ∀ j < ts.length, α (fmt1 ['c'] j) = true ↔ j = i) ∧
        ∀ (i : Nat) (hi : i < ts.length), SwitchedOn α ts.length i → Fits g ts[i] f := by
  obtain ⟨F', hF', hc⟩ := subgraph_ok g ts sym ht
  have e : F = F' := (M.pure_inj _ _).1 (h.symm.trans hF')
  subst e
  rw [hc.holds]
  have hlen : 1 ≤ ts.length := by have := List.length_pos_iff.2 ht; omega
  have hact : ∀ i < ts.length, ClauseTrue α (activation ts.length i) ↔ ¬ SwitchedOn α ts.length i := by
    intro i hi
    unfold activation SwitchedOn
    by_cases h1 : ts.length = 1
    · simp [h1, clauseTrue_nil]
    · rw [if_neg h1]
      by_cases h2 : ts.length = 2
      · rw [if_pos h2]
        by_cases h0 : i = 0
        · simp [h2, h0, clauseTrue_cons, clauseTrue_nil]
        · simp [h2, h0, clauseTrue_cons, clauseTrue_nil]
      · rw [if_neg h2]
        have h3 : 3 ≤ ts.length := by omega
        simp [h1, h2, h3, clauseTrue_cons, clauseTrue_nil]
  unfold subClauses
  have hmap := fun α : Str → Bool => UnaryMapping.C49_unary (subMapping (maxOrder ts) g.verts.length sym)
    (fun _ => List.nodup_range) (fun _ => List.nodup_range) α
  have e1 : ∀ x < g.verts.length, (List.range g.verts.length).idxOf x = x := fun x hx => by
    have := List.nodup_range.idxOf_getElem x (by simpa using hx) (xs := List.range g.verts.length)
    simpa using this
  have hsel : AllTrue α (if (selectors ts.length).length > 1 then equalTo (selectors ts.length) 1 else []) ↔
      (3 ≤ ts.length → ∃ i < ts.length, ∀ j < ts.length, α (fmt1 ['c'] j) = true ↔ j = i) := by
    by_cases h3 : 3 ≤ ts.length
    · have hs : selectors ts.length = (List.range ts.length).map fun i => fmt1 ['c'] i := by
        unfold selectors; rw [if_neg (by omega), if_neg (by omega)]
      rw [hs, if_pos (by simp; omega), allTrue_exactlyOne α _ _ List.nodup_range]
      simp only [h3, true_imp_iff, List.mem_range]
      constructor
      · rintro ⟨⟨i, hi, ha⟩, hu⟩
        exact ⟨i, hi, fun j hj => ⟨fun hb => hu j hj i hi hb ha, fun e => e ▸ ha⟩⟩
      · rintro ⟨i, hi, hj⟩
        exact ⟨⟨i, hi, (hj i hi).2 rfl⟩, fun a ha b hb e1 e2 => by rw [(hj a ha).1 e1, (hj b hb).1 e2]⟩
    · rw [if_neg]
      · exact iff_of_true (allTrue_nil α) fun h => absurd h h3
      · unfold selectors
        split
        · simp
        · rw [if_pos (by omega)]; simp
  rw [allTrue_append, allTrue_append, hsel, hmap, allTrue_flatMap]
  simp only [subMapping, UnaryMapping.full, true_imp_iff, Bool.false_eq_true, false_imp_iff, List.mem_range, and_assoc, true_and]
  have S : ∀ i j, fmt2 ['S'] i j = subVar i j := fun _ _ => rfl
  simp only [S]
  constructor
  · rintro ⟨hs, htot, hinj, hfun, hmono, htemp⟩
    choose! f hf using htot
    have hP : Placement (maxOrder ts) g.verts.length sym f := by
      refine ⟨fun i hi => (hf i hi).1, fun i j hij hj => ?_⟩
      have hne : f i ≠ f j := fun e => by
        have := hinj (f i) (hf i (by omega)).1 i (by omega) j hj (hf i (by omega)).2 (by rw [e]; exact (hf j hj).2)
        omega
      refine ⟨hne, fun hs => ?_⟩
      have := hmono hs i j ((sorted_pair (range_sorted _)).2 ⟨List.mem_range.2 (by omega), List.mem_range.2 hj, hij⟩) (f i)
        (hf i (by omega)).1 (f j) (hf j hj).1 (hf i (by omega)).2 (hf j hj).2
      rw [e1 _ (hf i (by omega)).1, e1 _ (hf j hj).1] at this
      omega
    refine ⟨f, fun i hi j hj => ⟨fun ha => hfun i hi j hj _ (hf i hi).1 ha (hf i hi).2, fun e => e ▸ (hf i hi).2⟩, hP, hs,
      fun i hi hon i1 i2 h1 h2 => ?_⟩
    have hk := le_maxOrder (List.getElem_mem hi)
    rw [← Bool.eq_iff_iff]
    by_contra hne
    have hp := hP.2 i1 i2 h1 (by omega)
    have := htemp (ts[i], i) (zipIdx_getElem hi) _ (mem_templateClauses.2 ⟨i1, i2, f i1, f i2, h1, h2, hP.1 i1 (by omega), hP.1 i2 (by omega),
      hp.1, hp.2, hne, rfl⟩)
    rw [clauseTrue_append, hact i hi] at this
    rcases this with h | h
    · exact h hon
    · simp [clauseTrue_cons, clauseTrue_nil, (hf i1 (by omega)).2, (hf i2 (by omega)).2] at h
  · rintro ⟨f, hS, hP, hs, hfit⟩
    refine ⟨hs, fun i hi => ⟨f i, hP.1 i hi, (hS i hi _ (hP.1 i hi)).2 rfl⟩, ?_, ?_, ?_, ?_⟩
    · intro r hr i hi j hj a1 a2
      rw [hS i hi r hr] at a1
      rw [hS j hj r hr] at a2
      by_contra hne
      rcases Nat.lt_or_gt_of_ne hne with h | h
      · exact (hP.2 i j h hj).1 (a1.symm.trans a2)
      · exact (hP.2 j i h hi).1 (a2.symm.trans a1)
    · intro i hi r hr r' hr' a1 a2
      rw [(hS i hi r hr).1 a1, (hS i hi r' hr').1 a2]
    · intro hs i j hsub r hr r' hr' a1 a2
      have hij := (sorted_pair (range_sorted _)).1 hsub
      rw [List.mem_range, List.mem_range] at hij
      rw [hS i hij.1 r hr] at a1
      rw [hS j hij.2.1 r' hr'] at a2
      have := (hP.2 i j hij.2.2 hij.2.1).2 hs
      rw [e1 r hr, e1 r' hr']
      omega
    · rintro ⟨t, i⟩ hti c hc'
      obtain ⟨i1, i2, j1, j2, h1, h2, h3, h4, h5, h6, h7, rfl⟩ := mem_templateClauses.1 hc'
      have hi := (zipIdx_mem hti).1
      have hget : ts[i] = t := by
        have := List.mem_zipIdx_iff_getElem?.1 hti
        rw [List.getElem?_eq_getElem hi] at this
        exact Option.some.inj this
      have hk := le_maxOrder (zipIdx_mem hti).2
      dsimp only at h2 hk hi
      rw [clauseTrue_append]
      by_cases hon : SwitchedOn α ts.length i
      · right
        simp only [clauseTrue_cons, clauseTrue_nil, or_false]
        by_contra hcon
        simp only [not_or, Bool.not_eq_false] at hcon
        rw [hS i1 (by omega) j1 h3, hS i2 (by omega) j2 h4] at hcon
        have := hfit i hi hon i1 i2 h1 (by rw [hget]; exact h2)
        rw [hget, ← hcon.1, ← hcon.2, ← Bool.eq_iff_iff] at this
        exact h7 this
      · exact .inl ((hact i hi).2 hon)

/-- **C67.** Binary clique formula: the positions written in binary, for `i = 1..k`, are increasing and of pairwise connected vertices. -/
theorem C67_binary_clique {g : Graph} {nodes : List Nat} (hn : nodes.Nodup) {k bits : Nat} (hb : nodes.length ≤ 2 ^ bits) {F : CNF Str}
    (h : binaryClique g nodes k bits = pure F) :
    (∀ x, x ∈ F.vars ↔ ∃ i b, (1 ≤ i ∧ i ≤ k) ∧ b < bits ∧ x = fmt2 "Y".toList i b) ∧
    ∀ α, Holds F.vars F.clauses α ↔
      (∀ i, 1 ≤ i ∧ i ≤ k → binVal α (fmt2 "Y".toList i) bits < nodes.length) ∧
      ∀ i j, 1 ≤ i → i < j → j ≤ k → binVal α (fmt2 "Y".toList i) bits < binVal α (fmt2 "Y".toList j) bits ∧
        g.hasEdge (nodes.getD (binVal α (fmt2 "Y".toList i) bits) 0) (nodes.getD (binVal α (fmt2 "Y".toList j) bits) 0) = true := by
  unfold binaryClique at h
  split at h
  · cases h
  dsimp only at h
  refine ⟨fun x => ?_, fun α => ?_⟩
  · rw [ofPartsStrict_vars h]
    simp only [BinaryMapping.allVars, List.mem_flatMap, List.mem_map, List.mem_range, mem_oneTo]
    constructor
    · rintro ⟨i, hi, j, hj, rfl⟩; exact ⟨i, j, hi, hj, rfl⟩
    · rintro ⟨i, j, hi, hj, rfl⟩; exact ⟨i, hi, j, hj, rfl⟩
  · rw [(ofPartsStrict_coh h).holds, allTrue_append, BinaryMapping.C49_binary _ hb hn]
    have hfi := fun (i : Nat) {r : Nat} (hr : r ∈ nodes) =>
      BinaryMapping.forbidImage_true (BinaryMapping.mk (oneTo k) nodes bits (fmt2 "Y".toList) true true) hb α i hr
    have e : ∀ x < nodes.length, nodes.idxOf (nodes.getD x 0) = x := fun x hx => by
      rw [List.getD_eq_getElem?_getD, List.getElem?_eq_getElem hx]; exact hn.idxOf_getElem x hx
    simp only [true_imp_iff, allTrue_flatMap, allTrue_map, sorted_pair (oneTo_sorted k), mem_oneTo]
    dsimp only at hfi ⊢
    constructor
    · rintro ⟨⟨h1, h2, h3⟩, h4⟩
      refine ⟨h1, fun i j hi hij hj => ?_⟩
      have a := h2 i j ⟨⟨hi, by omega⟩, ⟨by omega, hj⟩, hij⟩
      have b := h3 i j ⟨⟨hi, by omega⟩, ⟨by omega, hj⟩, hij⟩
      have hlt : binVal α (fmt2 "Y".toList i) bits < binVal α (fmt2 "Y".toList j) bits := by omega
      refine ⟨hlt, ?_⟩
      by_contra hne
      have hi' := h1 i ⟨hi, by omega⟩
      have hj' := h1 j ⟨by omega, hj⟩
      have := h4 (i, j) (oneTo_pairs.2 ⟨mem_oneTo.2 ⟨hi, by omega⟩, mem_oneTo.2 ⟨by omega, hj⟩, hij⟩)
        (nodes.getD (binVal α (fmt2 "Y".toList i) bits) 0, nodes.getD (binVal α (fmt2 "Y".toList j) bits) 0)
        (by
          rw [List.mem_filter]
          refine ⟨mem_pairs.2 ((sublist_idx hn).2 ⟨getD_mem hi', getD_mem hj', ?_⟩), by simpa using hne⟩
          rw [e _ hi', e _ hj']
          exact hlt)
      dsimp only at this
      rw [clauseTrue_append, hfi _ (getD_mem hi'), hfi _ (getD_mem hj'), e _ hi', e _ hj'] at this
      simp at this
    · rintro ⟨h1, h2⟩
      refine ⟨⟨h1, fun i j hs => ?_, fun i j hs => ?_⟩, ?_⟩
      · have := (h2 i j hs.1.1 hs.2.2 hs.2.1.2).1; omega
      · have := (h2 i j hs.1.1 hs.2.2 hs.2.1.2).1; omega
      · rintro ⟨i, j⟩ hp ⟨u, v⟩ hq
        obtain ⟨a, b, c⟩ := oneTo_pairs.1 hp
        rw [mem_oneTo] at a b
        rw [List.mem_filter] at hq
        obtain ⟨hu, hv', hlt⟩ := (sublist_idx hn).1 (mem_pairs.1 hq.1)
        rw [clauseTrue_append, hfi _ hu, hfi _ hv']
        by_contra hcon
        push Not at hcon
        have := (h2 i j a.1 c b.2).2
        rw [hcon.1, hcon.2, getD_idxOf hu, getD_idxOf hv'] at this
        simp [this] at hq

/-! ### Well-formedness and instances -/

/-- **C58.** The other generators: whatever they return is well-formed. -/
theorem C58_more_families_proper {F : CNF Str}
    (h : (∃ s k n, ramsey s k n = pure F) ∨ (∃ r n, pythagorean r n = pure F) ∨ (∃ n k c, cliqueColoring n k c = pure F) ∨
      (∃ g d b, dominatingSet g d b = pure F) ∨ (∃ g e, subsetCardinality g e = pure F) ∨ (∃ g1 g2, graphIsomorphism g1 g2 = pure F) ∨
      (∃ g, graphAutomorphism g = pure F) ∨ (∃ g : Digraph Str, pebbling g = pure F) ∨ (∃ (g : Digraph Str) (n : Int), stone id g n = pure F) ∨
      (∃ (g : Digraph Str) (b : BiGraph), sparseStone id g b = pure F) ∨ (∃ g ts s, subgraph g ts s = pure F) ∨
      (∃ g ns k b, binaryClique g ns k b = pure F)) : Proper F.vars F.clauses := by
  have hall : ∀ {s : Bool} {cs ds : List (List (Lit Str))} {G H : CNF Str}, G.Coh ds → G.addAll s cs = pure H → H.Coh (ds ++ cs) := by
    intro s cs ds G H hG h
    have := foldlM_coh (g := fun c => [c]) (fun h e => addClause_coh h e) _ hG h
    simpa using this
  rcases h with ⟨_, _, _, h⟩ | ⟨_, _, h⟩ | ⟨_, _, _, h⟩ | ⟨_, _, _, h⟩ | ⟨_, _, h⟩ | ⟨_, _, h⟩ | ⟨_, h⟩ | ⟨_, h⟩ | ⟨_, _, h⟩ | ⟨_, _, h⟩ |
    ⟨_, ts, _, h⟩ | ⟨_, _, _, _, h⟩
  · exact (ofPartsStrict_coh h).proper
  · exact (ofPartsStrict_coh h).proper
  · exact (ofPartsStrict_coh h).proper
  · exact (hall (CNF.coh_empty.addVariables) h).proper
  · exact (ofPartsStrict_coh h).proper
  · exact (ofPartsStrict_coh h).proper
  · obtain ⟨G, hG, hF⟩ := M.bind_eq_pure.1 h
    exact (addClause_coh (ofPartsStrict_coh hG) hF).proper
  · unfold pebbling at h
    split at h
    · exact (ofParts_coh h).proper
    · cases h
  · unfold stone at h
    split at h
    · cases h
    · split at h
      · cases h
      · exact (ofParts_coh h).proper
  · unfold sparseStone at h
    split at h
    · cases h
    · split at h
      · cases h
      · obtain ⟨G, hG, hF⟩ := M.bind_eq_pure.1 h
        exact (hall (ofParts_coh hG) hF).proper
  · unfold subgraph at h
    split at h
    · rw [← (M.pure_inj _ _).1 h]; exact (CNF.coh_empty (V := Str)).proper
    · dsimp only at h
      obtain ⟨F1, h1, h⟩ := M.bind_eq_pure.1 h
      obtain ⟨F2, h2, h3⟩ := M.bind_eq_pure.1 h
      exact (hall (hall (hall CNF.coh_empty.addVariables h1).addVariables h2) h3).proper
  · unfold binaryClique at h
    split at h
    · cases h
    · exact (ofPartsStrict_coh h).proper

/-- Beside C67: the pebbling formula of a path of two vertices, written out; pebbling both vertices breaks only the rule of the sink. -/
example : ∃ F, pebbling (⟨[1, 2], [(1, 2)]⟩ : Digraph Nat) = pure F ∧ ∀ α, Holds F.vars F.clauses α ↔
    (α 1 = true ∧ (α 1 = true → α 2 = true) ∧ α 2 = false) := by
  have hg : (⟨[1, 2], [(1, 2)]⟩ : Digraph Nat).Wf := ⟨by decide, by decide⟩
  obtain ⟨F, h, _⟩ := (C64_pebbling (⟨[1, 2], [(1, 2)]⟩ : Digraph Nat) hg).2 (Digraph.acyclic_of_rank id (by decide))
  refine ⟨F, h, fun α => ?_⟩
  rw [(C67_pebbling hg h).2 α]
  simp
  tauto

/-- Beside C67: a triangle, two charges: a model is a path between the two charged vertices. -/
example : ∃ F, tseitin ⟨[1, 2, 3], [(1, 2), (1, 3), (2, 3)]⟩ (some [true, true]) = pure F ∧
    Holds F.vars F.clauses (fun x => decide (x = fmt2 "E".toList 1 2)) ∧ ¬ Holds F.vars F.clauses (fun x => decide (x = fmt2 "E".toList 1 3)) := by
  have hg : (⟨[1, 2, 3], [(1, 2), (1, 3), (2, 3)]⟩ : Graph).Wf := ⟨by decide, by decide, by decide, by decide⟩
  obtain ⟨F, h, _⟩ := C53_tseitin _ hg [true, true]
  refine ⟨F, h, ?_, ?_⟩
  · rw [(C67_tseitin hg h).2]; decide
  · rw [(C67_tseitin hg h).2]; decide

/-- Beside C67: the models of "find an edge in a path of three vertices": the two edges, and nothing else. -/
example : ∃ F, cliqueFormula ⟨[7, 8, 9], [(7, 8), (8, 9)]⟩ 2 = pure F ∧ ∀ α, Holds F.vars F.clauses α →
    (α (fmt2 ['S'] 0 0) = true ∧ α (fmt2 ['S'] 1 1) = true) ∨ (α (fmt2 ['S'] 0 1) = true ∧ α (fmt2 ['S'] 1 2) = true) := by
  have hg : (⟨[7, 8, 9], [(7, 8), (8, 9)]⟩ : Graph).Wf := ⟨by decide, by decide, by decide, by decide⟩
  obtain ⟨F, h, _⟩ := C65_clique _ hg 2
  refine ⟨F, h, fun α ha => ?_⟩
  obtain ⟨f, hS, hP, _, hfit⟩ := (C67_subgraph (by simp) h α).1 ha
  have hm : maxOrder [Graph.complete 2] = 2 := by decide
  rw [hm] at hS hP
  have hfit := hfit 0 (by simp) (.inl rfl) 0 1 (by omega) (by decide)
  have h0 := hP.1 0 (by omega)
  have h1 := hP.1 1 (by omega)
  have h2 := (hP.2 0 1 (by omega) (by omega)).2 rfl
  have he := hfit.1 (by decide)
  rw [hS 0 (by omega) 0 (by decide), hS 1 (by omega) 1 (by decide), hS 0 (by omega) 1 (by decide), hS 1 (by omega) 2 (by decide)]
  simp only [List.length_cons, List.length_nil] at h0 h1
  generalize f 0 = a at *
  generalize f 1 = b at *
  have ha : a < 3 := h0
  have hb : b < 3 := h1
  interval_cases a <;> interval_cases b <;> first | omega | (revert he; decide)

end NDP.Cnfgen
