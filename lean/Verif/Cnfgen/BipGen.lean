import Verif.Cnfgen.GraphDimacs
/-
  C74: the bipartite graph generators (`graphs.py` 866-1070).  Random choices are arguments, with the contracts of `random.sample` and
  `random.randint` as hypotheses.
-/
namespace NDP.Cnfgen
open NDP

/-! ### Model -/

/-- `G.add_node(v,bipartite=b)`. -/
def Nx.addSide {V : Type} [DecidableEq V] (G : Nx V) (v : V) (b : Bool) : Nx V := (G.addNode v).setColor v b

/-- `graphs.py` 908-914, 966-972, 1033-1040: a graph with the vertices `L` on the left, `R` on the right. -/
def bipBase {V : Type} [DecidableEq V] (L R : List V) : Nx V :=
  R.foldl (fun G v => G.addSide v true) (L.foldl (fun G v => G.addSide v false) { directed := false })

/-- Adding edges in turn. -/
def Nx.addEdges {V : Type} [DecidableEq V] (G : Nx V) (es : List (V × V)) : Nx V := es.foldl (fun G e => G.addEdge e.1 e.2) G

/-- `graphs.py` 866-922 (`bipartite_random_left_regular`).  `smp u` is what `random.sample(R,d)` returns for the left vertex `u`.  The name is left out. -/
def bipLeftRegular (smp : Nat → List Nat) (l r d : Int) : M (Nx Nat) :=
  if l < 0 ∨ r < 0 ∨ d < 0 then raise .valueError
  else
    let L := List.range l.toNat
    let R := (List.range r.toNat).map (l.toNat + ·)
    pure ((bipBase L R).addEdges (L.flatMap fun u => (isort (fun a b => decide (a < b)) (smp u)).map fun v => (u, v)))

/-- `graphs.py` 924-978 (`bipartite_shift`); `K` is its `M`. -/
def bipShift (N K : Int) (pattern : List Int) : M (Nx Int) :=
  if N < 1 ∨ K < 1 then raise .valueError
  else if ∃ x ∈ pattern, x < 1 ∨ x > K then raise .valueError
  else
    let L := intsTo N.toNat
    let R := (intsTo K.toNat).map (N + ·)
    let pattern := isort (fun a b => decide (a < b)) pattern
    pure ((bipBase L R).addEdges (L.flatMap fun u => pattern.map fun i => (u, N + 1 + (i + u - 2) % K)))

/-- `graphs.py` 1054-1055: `A[i],A[e] = A[e],A[i]`. -/
def swapAt (A : List Nat) (i e : Nat) : List Nat := (A.set i (A.getD e 0)).set e (A.getD i 0)

/-- The variables `A`, `B`, `G`. -/
structure RegSt where
  A : List Nat
  B : List Nat
  G : Nx Nat

/-- `graphs.py` 1045-1068: turn `i`; `pick k` is the pair `(ea,eb)` of the `k`-th try, `none` is "no good edge exists". -/
def regTurn (pick : Nat → Nat → Nat × Nat) (d n : Nat) (st : RegSt) (i : Nat) : Option RegSt :=
  match (List.range (3 * d * d)).find? fun k => !st.G.hasEdge (st.A.getD (pick i k).1 0) (st.B.getD (pick i k).2 0) with
  | some k =>
    let ea := (pick i k).1
    let eb := (pick i k).2
    some ⟨swapAt st.A i ea, swapAt st.B i eb, st.G.addEdge (st.A.getD ea 0) (st.B.getD eb 0)⟩
  | none =>
    if ∃ ea ∈ (List.range n).drop i, ∃ eb ∈ (List.range n).drop i, st.G.hasEdge (st.A.getD ea 0) (st.B.getD eb 0) = false then some st else none

/-- `graphs.py` 1030-1068: one call, `none` when it calls itself again. -/
def regAttempt (pick : Nat → Nat → Nat × Nat) (l r d : Nat) : Option (Nx Nat) :=
  let L := List.range l
  let R := (List.range r).map (l + ·)
  ((List.range (l * d)).foldlM (regTurn pick d (l * d))
    ⟨(List.replicate d L).flatten, (List.replicate (l * d / r) R).flatten, bipBase L R⟩).map (·.G)

/-- `graphs.py` 980-1070 (`bipartite_random_regular`).  `pick j` are the choices of the `j`-th nested call; `depth` calls are possible before
`RecursionError`. -/
def bipRegular (pick : Nat → Nat → Nat → Nat × Nat) (depth : Nat) (l r d : Int) : M (Nx Nat) :=
  if l < 0 ∨ r < 0 ∨ d < 0 then raise .valueError
  else if r = 0 then raise .zeroDivisionError
  else if (l * d) % r ≠ 0 then raise .valueError
  else match (List.range depth).findSome? fun j => regAttempt (pick j) l.toNat r.toNat d.toNat with
    | some G => pure G
    | none => raise .recursionError

/-! ### Specification -/

/-- The number of neighbours. -/
def Nx.degree {V : Type} [DecidableEq V] (G : Nx V) (u : V) : Nat := (G.nodes.filter fun v => G.hasEdge u v).length

/-- `G` is bipartite with the given sides. -/
structure Nx.IsBip {V : Type} [DecidableEq V] (G : Nx V) (L R : List V) : Prop where
  directed : G.directed = false
  nodes : G.nodes = L ++ R
  nodup : (L ++ R).Nodup
  left : ∀ v ∈ L, G.color v = some false
  right : ∀ v ∈ R, G.color v = some true
  cross : ∀ u v, G.hasEdge u v = true → (u ∈ L ∧ v ∈ R) ∨ (u ∈ R ∧ v ∈ L)

/-! ### Lemmas -/
section
variable {V : Type} [DecidableEq V]

theorem addSides (b : Bool) : ∀ (vs : List V) (G : Nx V), vs.Nodup → (∀ v ∈ vs, v ∉ G.nodes) →
    vs.foldl (fun G v => G.addSide v b) G = { G with nodes := G.nodes ++ vs, color := fun x => if x ∈ vs then some b else G.color x } := by
  intro vs
  induction vs with
  | nil => intro G _ _; simp
  | cons v vs ih =>
    intro G hn hv
    rw [List.nodup_cons] at hn
    have e : G.addSide v b = { G with nodes := G.nodes ++ [v], color := fun x => if x = v then some b else G.color x } := by
      unfold Nx.addSide Nx.addNode Nx.setColor; rw [if_neg (hv v (by simp))]
    rw [List.foldl_cons, e, ih _ hn.2]
    · simp only [List.append_assoc, List.singleton_append, Nx.mk.injEq, true_and, and_true]
      funext x
      by_cases h1 : x ∈ vs
      · simp [h1]
      · by_cases h2 : x = v <;> simp [h1, h2]
    · intro w hw
      simp only [List.mem_append, List.mem_singleton, not_or]
      exact ⟨hv w (by simp [hw]), fun e => hn.1 (e ▸ hw)⟩

theorem bipBase_eq {L R : List V} (h : (L ++ R).Nodup) :
    bipBase L R = { directed := false, nodes := L ++ R, color := fun x => if x ∈ R then some true else if x ∈ L then some false else none } := by
  obtain ⟨h1, h2, h3⟩ := List.nodup_append.1 h
  unfold bipBase
  rw [addSides false L _ h1 (by simp), addSides true R _ h2]
  · simp
  · intro v hv hv'
    simp only [List.nil_append] at hv'
    exact h3 v hv' v hv rfl

theorem gext_addEdges (G : Nx V) : ∀ es : List (V × V), GExt G (G.addEdges es) [] es := by
  intro es
  induction es generalizing G with
  | nil => exact GExt.refl G
  | cons e es ih => exact (gext_addEdge G e.1 e.2).trans (ih (G.addEdge e.1 e.2))

theorem addEdges_same {G : Nx V} : ∀ {es : List (V × V)}, (∀ e ∈ es, e.1 ∈ G.nodes ∧ e.2 ∈ G.nodes) → SameBut G (G.addEdges es) := by
  intro es
  induction es generalizing G with
  | nil => intro _; exact ⟨rfl, rfl, rfl, rfl, rfl⟩
  | cons e es ih =>
    intro h
    have s1 := addEdge_same (h e (by simp)).1 (h e (by simp)).2
    have s2 := ih (G := G.addEdge e.1 e.2) (fun e' he' => by rw [s1.nodes]; exact h e' (by simp [he']))
    exact ⟨s2.directed.trans s1.directed, s2.name.trans s1.name, s2.nodes.trans s1.nodes, s2.color.trans s1.color, s2.topo.trans s1.topo⟩

/-- The graph with sides `L`, `R` and the edges `es` between them. -/
theorem bipBase_addEdges {L R : List V} (h : (L ++ R).Nodup) {es : List (V × V)} (hes : ∀ e ∈ es, e.1 ∈ L ∧ e.2 ∈ R) :
    ((bipBase L R).addEdges es).IsBip L R ∧ ∀ u v, ((bipBase L R).addEdges es).hasEdge u v = true ↔ (u, v) ∈ es ∨ (v, u) ∈ es := by
  have hb := bipBase_eq h
  have hs : SameBut (bipBase L R) ((bipBase L R).addEdges es) := addEdges_same (by
    intro e he
    rw [hb]
    have := hes e he
    simp [this.1, this.2])
  have hg := gext_addEdges (bipBase L R) es
  have he : ∀ u v, ((bipBase L R).addEdges es).hasEdge u v = true ↔ (u, v) ∈ es ∨ (v, u) ∈ es := by
    intro u v
    rw [hg.edges, hasEdge_iff]
    rw [hb]; simp
  have hdis := (List.nodup_append.1 h).2.2
  refine ⟨⟨by rw [hs.directed, hb], by rw [hs.nodes, hb], h, ?_, ?_, ?_⟩, he⟩
  · intro v hv
    rw [hs.color, hb]
    have : v ∉ R := fun h' => hdis v hv v h' rfl
    simp [this, hv]
  · intro v hv; rw [hs.color, hb]; simp [hv]
  · intro u v huv
    rcases (he u v).1 huv with h' | h'
    · exact .inl (hes _ h')
    · exact .inr (hes _ h').symm

theorem length_filter_eq {l m : List V} {p : V → Bool} (hl : l.Nodup) (hm : m.Nodup) (h : ∀ x, x ∈ m ↔ x ∈ l ∧ p x = true) : (l.filter p).length = m.length := by
  apply List.Perm.length_eq
  rw [List.perm_ext_iff_of_nodup (hl.filter _) hm]
  intro x
  rw [List.mem_filter, h]

/-- Degrees as numbers of edges. -/
theorem degree_fst {G : Nx V} {L R : List V} (hG : G.IsBip L R) {P : List (V × V)} (hP : P.Nodup) (hes : ∀ e ∈ P, e.1 ∈ L ∧ e.2 ∈ R)
    (he : ∀ u v, G.hasEdge u v = true ↔ (u, v) ∈ P ∨ (v, u) ∈ P) {u : V} (hu : u ∈ L) : G.degree u = (P.map Prod.fst).count u := by
  have hdis := (List.nodup_append.1 hG.nodup).2.2
  unfold Nx.degree
  rw [length_filter_eq (m := (P.filter fun e => decide (e.1 = u)).map Prod.snd) (by rw [hG.nodes]; exact hG.nodup)]
  · rw [List.length_map, List.count_eq_length_filter, List.filter_map, List.length_map]
    congr 1
  · refine (hP.filter _).map_on ?_
    intro a ha b hb hab
    have h1 := (List.mem_filter.1 ha).2
    have h2 := (List.mem_filter.1 hb).2
    simp only [decide_eq_true_eq] at h1 h2
    exact Prod.ext (h1.trans h2.symm) hab
  · intro v
    rw [he, List.mem_map, hG.nodes]
    constructor
    · rintro ⟨e, hm, rfl⟩
      obtain ⟨h1, h2⟩ := List.mem_filter.1 hm
      simp only [decide_eq_true_eq] at h2
      subst h2
      exact ⟨List.mem_append.2 (.inr (hes e h1).2), .inl h1⟩
    · rintro ⟨_, h | h⟩
      · exact ⟨(u, v), List.mem_filter.2 ⟨h, by simp⟩, rfl⟩
      · exact absurd rfl (hdis u hu u (hes _ h).2)

theorem degree_snd {G : Nx V} {L R : List V} (hG : G.IsBip L R) {P : List (V × V)} (hP : P.Nodup) (hes : ∀ e ∈ P, e.1 ∈ L ∧ e.2 ∈ R)
    (he : ∀ u v, G.hasEdge u v = true ↔ (u, v) ∈ P ∨ (v, u) ∈ P) {u : V} (hu : u ∈ R) : G.degree u = (P.map Prod.snd).count u := by
  have hdis := (List.nodup_append.1 hG.nodup).2.2
  unfold Nx.degree
  rw [length_filter_eq (m := (P.filter fun e => decide (e.2 = u)).map Prod.fst) (by rw [hG.nodes]; exact hG.nodup)]
  · rw [List.length_map, List.count_eq_length_filter, List.filter_map, List.length_map]
    congr 1
  · refine (hP.filter _).map_on ?_
    intro a ha b hb hab
    have h1 := (List.mem_filter.1 ha).2
    have h2 := (List.mem_filter.1 hb).2
    simp only [decide_eq_true_eq] at h1 h2
    exact Prod.ext hab (h1.trans h2.symm)
  · intro v
    rw [he, List.mem_map, hG.nodes]
    constructor
    · rintro ⟨e, hm, rfl⟩
      obtain ⟨h1, h2⟩ := List.mem_filter.1 hm
      simp only [decide_eq_true_eq] at h2
      subst h2
      exact ⟨List.mem_append.2 (.inl (hes e h1).1), .inr h1⟩
    · rintro ⟨_, h | h⟩
      · exact absurd rfl (hdis u (hes _ h).1 u hu)
      · exact ⟨(v, u), List.mem_filter.2 ⟨h, by simp⟩, rfl⟩
end

/-! ### Left regular -/

theorem sides_nodup (l r : Nat) : (List.range l ++ (List.range r).map (l + ·)).Nodup := by
  rw [List.nodup_append]
  refine ⟨List.nodup_range, List.nodup_range.map (fun _ _ h => by simpa using h), ?_⟩
  intro a ha b hb
  obtain ⟨c, _, rfl⟩ := List.mem_map.1 hb
  have := List.mem_range.1 ha
  omega

/-- **C74, left regular graphs.** Negative arguments are refused; otherwise, whatever is drawn, the graph is bipartite with `l` and `r` vertices and
every left vertex has exactly `min r d` neighbours, namely those drawn. -/
theorem C74_left_regular (smp : Nat → List Nat) (l r d : Int) :
    ((l < 0 ∨ r < 0 ∨ d < 0) → bipLeftRegular smp l r d = raise .valueError) ∧
    (0 ≤ l → 0 ≤ r → 0 ≤ d →
      (∀ u < l.toNat, (smp u).Nodup ∧ (smp u).length = min r.toNat d.toNat ∧ ∀ v ∈ smp u, l.toNat ≤ v ∧ v < l.toNat + r.toNat) →
      ∃ G, bipLeftRegular smp l r d = pure G ∧ G.IsBip (List.range l.toNat) ((List.range r.toNat).map (l.toNat + ·)) ∧
        ∀ u < l.toNat, G.degree u = min r.toNat d.toNat ∧ ∀ v, G.hasEdge u v = true ↔ v ∈ smp u) := by
  constructor
  · intro h; unfold bipLeftRegular; rw [if_pos h]
  · intro h1 h2 h3 hs
    unfold bipLeftRegular
    rw [if_neg (by omega)]
    have hes : ∀ e ∈ (List.range l.toNat).flatMap (fun u => (isort (fun a b => decide (a < b)) (smp u)).map fun v => (u, v)),
        e.1 ∈ List.range l.toNat ∧ e.2 ∈ (List.range r.toNat).map (l.toNat + ·) := by
      intro e he
      obtain ⟨u, hu, hm⟩ := List.mem_flatMap.1 he
      obtain ⟨v, hv, rfl⟩ := List.mem_map.1 hm
      rw [mem_isort] at hv
      have := (hs u (List.mem_range.1 hu)).2.2 v hv
      exact ⟨hu, List.mem_map.2 ⟨v - l.toNat, List.mem_range.2 (by omega), by omega⟩⟩
    obtain ⟨hb, he⟩ := bipBase_addEdges (sides_nodup l.toNat r.toNat) hes
    refine ⟨_, rfl, hb, ?_⟩
    intro u hu
    have hadj : ∀ v, Nx.hasEdge (Nx.addEdges (bipBase (List.range l.toNat) ((List.range r.toNat).map (l.toNat + ·)))
        ((List.range l.toNat).flatMap (fun u => (isort (fun a b => decide (a < b)) (smp u)).map fun v => (u, v)))) u v = true ↔ v ∈ smp u := by
      intro v
      rw [he]
      constructor
      · rintro (h | h)
        · obtain ⟨u', _, hm⟩ := List.mem_flatMap.1 h
          obtain ⟨v', hv', e⟩ := List.mem_map.1 hm
          simp only [Prod.mk.injEq] at e
          obtain ⟨rfl, rfl⟩ := e
          rwa [mem_isort] at hv'
        · have := (hes _ h).2
          obtain ⟨c, _, e⟩ := List.mem_map.1 this
          dsimp only at e
          omega
      · intro h
        exact .inl (List.mem_flatMap.2 ⟨u, List.mem_range.2 hu, List.mem_map.2 ⟨v, by rwa [mem_isort], rfl⟩⟩)
    refine ⟨?_, hadj⟩
    rw [← (hs u hu).2.1]
    unfold Nx.degree
    refine length_filter_eq (by rw [hb.nodes]; exact hb.nodup) (hs u hu).1 ?_
    intro v
    rw [hadj, hb.nodes]
    constructor
    · intro hv
      refine ⟨List.mem_append.2 (.inr ?_), hv⟩
      have := (hs u hu).2.2 v hv
      exact List.mem_map.2 ⟨v - l.toNat, List.mem_range.2 (by omega), by omega⟩
    · exact fun h => h.2

/-- **C74, left regular graphs: all of them.** Every graph of this kind is the result of some draws. -/
theorem C74_left_regular_all (l r d : Nat) (E : Nat → Nat → Bool)
    (hE : ∀ u < l, ((List.range r).filter fun v => E u (l + v)).length = min r d) :
    ∃ smp : Nat → List Nat, (∀ u < l, (smp u).Nodup ∧ (smp u).length = min r d ∧ ∀ v ∈ smp u, l ≤ v ∧ v < l + r) ∧
      ∃ G, bipLeftRegular smp l r d = pure G ∧ ∀ u < l, ∀ v, l ≤ v → v < l + r → G.hasEdge u v = E u v := by
  refine ⟨fun u => ((List.range r).filter fun v => E u (l + v)).map (l + ·), ?_, ?_⟩
  · intro u hu
    refine ⟨(List.nodup_range.filter _).map (fun _ _ h => by simpa using h), by rw [List.length_map]; exact hE u hu, ?_⟩
    intro v hv
    obtain ⟨w, hw, rfl⟩ := List.mem_map.1 hv
    have := List.mem_range.1 (List.mem_filter.1 hw).1
    omega
  · obtain ⟨G, e, _, h⟩ := (C74_left_regular (fun u => ((List.range r).filter fun v => E u (l + v)).map (l + ·)) l r d).2 (by omega) (by omega) (by omega) (by
      intro u hu
      simp only [Int.toNat_natCast] at hu ⊢
      refine ⟨(List.nodup_range.filter _).map (fun _ _ h => by simpa using h), by rw [List.length_map]; exact hE u hu, ?_⟩
      intro v hv
      obtain ⟨w, hw, rfl⟩ := List.mem_map.1 hv
      have := List.mem_range.1 (List.mem_filter.1 hw).1
      omega)
    refine ⟨G, e, ?_⟩
    intro u hu v h1 h2
    rw [Bool.eq_iff_iff, (h u (by simpa using hu)).2, List.mem_map]
    constructor
    · rintro ⟨w, hw, rfl⟩; exact (List.mem_filter.1 hw).2
    · intro h; exact ⟨v - l, List.mem_filter.2 ⟨List.mem_range.2 (by omega), by rw [show l + (v - l) = v by omega]; exact h⟩, by omega⟩

/-! ### Shift -/

/-- **C74, shift graphs.** Refused unless `N, K ≥ 1` and the pattern lies in `1 … K`.  Otherwise the left vertex `u` is joined to the right vertices
`p + u - 1` (counted from 1 with wrap around) for the `p` of the pattern, and has as many neighbours as the pattern has different numbers. -/
theorem C74_shift (N K : Int) (pattern : List Int) :
    ((N < 1 ∨ K < 1 ∨ ∃ p ∈ pattern, p < 1 ∨ p > K) → bipShift N K pattern = raise .valueError) ∧
    (1 ≤ N → 1 ≤ K → (∀ p ∈ pattern, 1 ≤ p ∧ p ≤ K) →
      ∃ G, bipShift N K pattern = pure G ∧ G.IsBip (intsTo N.toNat) ((intsTo K.toNat).map (N + ·)) ∧
        ∀ u, 1 ≤ u → u ≤ N → G.degree u = pattern.dedup.length ∧
          ∀ w, 1 ≤ w → w ≤ K → (G.hasEdge u (N + w) = true ↔ ∃ p ∈ pattern, K ∣ w - (p + u - 1))) := by
  constructor
  · intro h
    unfold bipShift
    by_cases h1 : N < 1 ∨ K < 1
    · rw [if_pos h1]
    · rw [if_neg h1, if_pos (by rcases h with h | h | h; exacts [absurd (.inl h) h1, absurd (.inr h) h1, h])]
  · intro hN hK hp
    unfold bipShift
    rw [if_neg (by omega), if_neg (by rintro ⟨x, hx, h⟩; have := hp x hx; omega)]
    have hnd : (intsTo N.toNat ++ (intsTo K.toNat).map (N + ·)).Nodup := by
      rw [List.nodup_append]
      refine ⟨intsTo_nodup _, (intsTo_nodup _).map (fun _ _ h => by simpa using h), ?_⟩
      intro a ha b hb
      obtain ⟨c, hc, rfl⟩ := List.mem_map.1 hb
      rw [mem_intsTo] at ha hc
      omega
    have hmem : ∀ v, v ∈ (intsTo K.toNat).map (N + ·) ↔ N + 1 ≤ v ∧ v ≤ N + K := by
      intro v
      rw [List.mem_map]
      constructor
      · rintro ⟨c, hc, rfl⟩; rw [mem_intsTo] at hc; omega
      · intro h; exact ⟨v - N, mem_intsTo.2 (by omega), by omega⟩
    have hes : ∀ e ∈ (intsTo N.toNat).flatMap (fun u => (isort (fun a b => decide (a < b)) pattern).map fun i => (u, N + 1 + (i + u - 2) % K)),
        e.1 ∈ intsTo N.toNat ∧ e.2 ∈ (intsTo K.toNat).map (N + ·) := by
      intro e he
      obtain ⟨u, hu, hm⟩ := List.mem_flatMap.1 he
      obtain ⟨i, hi, rfl⟩ := List.mem_map.1 hm
      refine ⟨hu, (hmem _).2 ?_⟩
      have h1 := Int.emod_nonneg (i + u - 2) (show K ≠ 0 by omega)
      have h2 := Int.emod_lt_of_pos (i + u - 2) (show 0 < K by omega)
      dsimp only
      omega
    obtain ⟨hb, he⟩ := bipBase_addEdges hnd hes
    refine ⟨_, rfl, hb, ?_⟩
    intro u hu1 hu2
    have hadj : ∀ v, Nx.hasEdge (Nx.addEdges (bipBase (intsTo N.toNat) ((intsTo K.toNat).map (N + ·)))
        ((intsTo N.toNat).flatMap (fun u => (isort (fun a b => decide (a < b)) pattern).map fun i => (u, N + 1 + (i + u - 2) % K)))) u v = true ↔
        ∃ p ∈ pattern, v = N + 1 + (p + u - 2) % K := by
      intro v
      rw [he]
      constructor
      · rintro (h | h)
        · obtain ⟨u', _, hm⟩ := List.mem_flatMap.1 h
          obtain ⟨i, hi, e⟩ := List.mem_map.1 hm
          simp only [Prod.mk.injEq] at e
          obtain ⟨rfl, rfl⟩ := e
          rw [mem_isort] at hi
          exact ⟨i, hi, rfl⟩
        · have := (hmem u).1 (hes _ h).2
          omega
      · rintro ⟨p, hp', rfl⟩
        exact .inl (List.mem_flatMap.2 ⟨u, mem_intsTo.2 (by omega), List.mem_map.2 ⟨p, by rwa [mem_isort], rfl⟩⟩)
    constructor
    · rw [← List.length_map (f := fun p => N + 1 + (p + u - 2) % K) (as := pattern.dedup)]
      refine length_filter_eq (by rw [hb.nodes]; exact hb.nodup) ?_ ?_
      · refine List.Nodup.map_on ?_ (List.nodup_dedup _)
        intro a ha b hb hab
        rw [List.mem_dedup] at ha hb
        have h1 := hp a ha
        have h2 := hp b hb
        have h3 : (a + u - 2) % K = (b + u - 2) % K := by omega
        have h4 := Int.emod_emod_of_dvd
        have h5 : K ∣ (a + u - 2) - (b + u - 2) := Int.dvd_of_emod_eq_zero (Int.emod_eq_emod_iff_emod_sub_eq_zero.1 h3)
        obtain ⟨k, hk⟩ := h5
        have hk0 : k = 0 := by
          by_contra hk0
          rcases lt_or_gt_of_ne hk0 with h | h
          · have : K * k ≤ K * (-1) := Int.mul_le_mul_of_nonneg_left (by omega) (by omega)
            omega
          · have : K * 1 ≤ K * k := Int.mul_le_mul_of_nonneg_left (by omega) (by omega)
            omega
        subst hk0
        omega
      · intro v
        rw [hadj, List.mem_map, hb.nodes]
        constructor
        · rintro ⟨p, hp', rfl⟩
          rw [List.mem_dedup] at hp'
          refine ⟨List.mem_append.2 (.inr ((hmem _).2 ?_)), p, hp', rfl⟩
          have h1 := Int.emod_nonneg (p + u - 2) (show K ≠ 0 by omega)
          have h2 := Int.emod_lt_of_pos (p + u - 2) (show 0 < K by omega)
          omega
        · rintro ⟨_, p, hp', rfl⟩
          exact ⟨p, by rwa [List.mem_dedup], rfl⟩
    · intro w hw1 hw2
      rw [hadj]
      constructor
      · rintro ⟨p, hp', e⟩
        refine ⟨p, hp', ?_⟩
        have h1 : w - 1 = (p + u - 2) % K := by omega
        have h2 : (w - (p + u - 1)) = (p + u - 2) % K - (p + u - 2) := by omega
        rw [h2, Int.emod_def]
        exact ⟨-((p + u - 2) / K), by rw [Int.mul_neg]; omega⟩
      · rintro ⟨p, hp', k, hk⟩
        refine ⟨p, hp', ?_⟩
        have h1 : (p + u - 2) = (w - 1) + K * (-k) := by rw [Int.mul_neg]; omega
        rw [h1, Int.add_mul_emod_self_left, Int.emod_eq_of_lt (by omega) (by omega)]
        omega

end NDP.Cnfgen
