import Verif.Cnfgen.CliqueColoring
import Mathlib.Data.List.Dedup
/-
  C61: `families/dominatingset.py`.
-/
namespace NDP.Cnfgen
open NDP

/-- `itertools.combinations_with_replacement(l, 2)` as pairs. -/
def replPairs {α : Type} : List α → List (α × α)
  | [] => []
  | x :: xs => (x :: xs).map (fun y => (x, y)) ++ replPairs xs

theorem mem_replPairs_sorted : ∀ {l : List Nat}, l.Pairwise (· < ·) → ∀ {x y : Nat}, (x, y) ∈ replPairs l ↔ x ∈ l ∧ y ∈ l ∧ x ≤ y
  | [], _, x, y => by simp [replPairs]
  | a :: l, h, x, y => by
    rw [List.pairwise_cons] at h
    rw [replPairs, List.mem_append, mem_replPairs_sorted h.2, List.mem_map]
    simp only [Prod.mk.injEq, List.mem_cons]
    constructor
    · rintro (⟨b, hb, rfl, rfl⟩ | ⟨hx, hy, hle⟩)
      · refine ⟨.inl rfl, hb, ?_⟩
        rcases hb with rfl | hb
        · exact le_rfl
        · exact (h.1 _ hb).le
      · exact ⟨.inr hx, .inr hy, hle⟩
    · rintro ⟨rfl | hx, hy, hle⟩
      · exact .inl ⟨y, hy, rfl, rfl⟩
      · rcases hy with rfl | hy
        · have := h.1 _ hx; omega
        · exact .inr ⟨hx, hy, hle⟩

/-- The loops `add_variable`, then `add_clause(…)`, on a new formula. -/
def CNF.ofPartsLoose {V : Type} [DecidableEq V] (vs : List V) (cs : List (List (Lit V))) : M (CNF V) :=
  (({} : CNF V).addVariables vs).addAll false cs

theorem CNF.ofPartsLoose_ok {V : Type} [DecidableEq V] {vs : List V} {cs : List (List (Lit V))}
    (hn : ∀ c ∈ cs, (c.map Prod.snd).Nodup) : ∃ F, CNF.ofPartsLoose vs cs = pure F ∧ F.Coh cs := by
  obtain ⟨G, h1, h2, _⟩ := CNF.addAll_ok (strict := false) (ds := cs) (CNF.coh_empty.addVariables (vs := vs)) hn (by simp)
  exact ⟨G, h1, by simpa using h2⟩

/-! ### Model -/

/-- `families/dominatingset.py` 58-59 (`D`). -/
def dsD (v : Nat) : Str := fmt1 ['x'] v
/-- `families/dominatingset.py` 61-62 (`M`). -/
def dsM (v i : Nat) : Str := fmt2 ['g'] v i

/-- `families/dominatingset.py` 64-65 (`N`): a vertex and its neighbours, sorted. -/
def closedNbhd (g : Graph) (v : Nat) : List Nat := (v :: g.neighbors v).mergeSort (fun a b => decide (a ≤ b))

/-- `families/dominatingset.py` 106 (`sorted(set(...))` on tuples, ordered as Python orders tuples). -/
def neighborhoods (g : Graph) : List (List Nat) := (g.verts.map (closedNbhd g)).dedup.mergeSort (fun a b => decide (a ≤ b))

/-- `families/dominatingset.py` 67-71: the variables. -/
def dsVars (g : Graph) (d : Nat) : List Str := g.verts.map dsD ++ (oneTo d).flatMap fun i => g.verts.map fun v => dsM v i

/-- `families/dominatingset.py` 73-82: vertices and indices. -/
def dsIndex (alternative : Bool) (V : List Nat) (d : Nat) : List (List (Lit Str)) :=
  if alternative then
    (pairs V).flatMap fun p => (oneTo d).map fun i => [(false, dsD p.1), (false, dsD p.2), (false, dsM p.1 i), (false, dsM p.2 i)]
  else (oneTo d).flatMap fun i => lessOrEqual (V.map fun v => dsM v i) 1

/-- `families/dominatingset.py` 84-94: no repetition. -/
def dsOrder (alternative : Bool) (V : List Nat) (d : Nat) : List (List (Lit Str)) :=
  if alternative then
    V.flatMap fun v => (pairs (oneTo d)).map fun p => [(false, dsD v), (false, dsM v p.1), (false, dsM v p.2)]
  else (replPairs (oneTo d)).flatMap fun p => (pairs V).map fun q =>
    [(false, dsM (max q.1 q.2) (min p.1 p.2)), (false, dsM (min q.1 q.2) (max p.1 p.2))]

/-- `families/dominatingset.py` 96-101. -/
def dsLink (alternative : Bool) (V : List Nat) (d : Nat) : List (List (Lit Str)) :=
  (if alternative then [] else (oneTo d).flatMap fun i => V.map fun v => [(false, dsM v i), (true, dsD v)]) ++
  V.map fun v => (false, dsD v) :: (oneTo d).map fun i => (true, dsM v i)

/-- `families/dominatingset.py` 104-108. -/
def dsClauses (alternative : Bool) (g : Graph) (d : Nat) : List (List (Lit Str)) :=
  dsIndex alternative g.verts d ++ dsOrder alternative g.verts d ++ dsLink alternative g.verts d ++
    (neighborhoods g).map fun N => N.map fun v => (true, dsD v)

/-- `families/dominatingset.py` 18-110 (`DominatingSet`).  A bound below 1 is not refused (the `ValueError` of line 45 is built but
not raised); negative bounds behave like 0. -/
def dominatingSet (g : Graph) (d : Nat) (alternative : Bool) : M (CNF Str) := CNF.ofPartsLoose (dsVars g d) (dsClauses alternative g d)

/-! ### Specification -/

/-- At most `d` vertices so that every other vertex is next to one of them. -/
def HasDominatingSet (g : Graph) (d : Nat) : Prop :=
  ∃ S : Finset Nat, (∀ v ∈ S, v ∈ g.verts) ∧ S.card ≤ d ∧ ∀ v ∈ g.verts, v ∈ S ∨ ∃ u ∈ S, g.hasEdge u v = true

/-! ### Proof -/

theorem dsDM {v w i : Nat} : dsD v ≠ dsM w i := by
  unfold dsD dsM fmt1 fmt2
  simp

theorem dsM_inj {v w i j : Nat} (h : dsM v i = dsM w j) : v = w ∧ i = j := fmt2_inj h
theorem dsD_inj {v w : Nat} (h : dsD v = dsD w) : v = w := fmt1_inj h

theorem exists_ds (S : Nat → Prop) (m : Nat → Nat → Prop) :
    ∃ α : Str → Bool, (∀ v, α (dsD v) = true ↔ S v) ∧ ∀ v i, α (dsM v i) = true ↔ m v i := by
  classical
  obtain ⟨α, h⟩ := exists_assign (f := fun p : Nat ⊕ Nat × Nat => match p with | .inl v => dsD v | .inr p => dsM p.1 p.2) (by
    rintro (v | ⟨v, i⟩) (w | ⟨w, j⟩) h
    · rw [dsD_inj h]
    · exact absurd h dsDM
    · exact absurd h.symm dsDM
    · obtain ⟨rfl, rfl⟩ := dsM_inj h; rfl) (fun p => match p with | .inl v => decide (S v) | .inr p => decide (m p.1 p.2))
  exact ⟨α, fun v => by rw [h (.inl v)]; simp, fun v i => by rw [h (.inr (v, i))]; simp⟩

theorem mem_closedNbhd {g : Graph} {u v : Nat} : u ∈ closedNbhd g v ↔ u = v ∨ (u ∈ g.verts ∧ g.hasEdge u v = true) := by
  unfold closedNbhd; rw [List.mem_mergeSort, List.mem_cons, Graph.mem_neighbors]

theorem closedNbhd_nodup {g : Graph} (hg : g.Wf) (v : Nat) : (closedNbhd g v).Nodup := by
  unfold closedNbhd
  rw [(List.mergeSort_perm _ _).nodup_iff, List.nodup_cons]
  exact ⟨fun h => hg.hasEdge_ne (Graph.mem_neighbors.1 h).2 rfl, hg.verts_nodup.filter _⟩

theorem mem_neighborhoods {g : Graph} {N : List Nat} : N ∈ neighborhoods g ↔ ∃ v ∈ g.verts, closedNbhd g v = N := by
  unfold neighborhoods; rw [List.mem_mergeSort, List.mem_dedup, List.mem_map]

theorem nodup4 {A : Type} {a b c d : A} (h1 : a ≠ b) (h2 : a ≠ c) (h3 : a ≠ d) (h4 : b ≠ c) (h5 : b ≠ d) (h6 : c ≠ d) :
    [a, b, c, d].Nodup := by simp [h1, h2, h3, h4, h5, h6]

theorem ds_nodup (b : Bool) {g : Graph} (hg : g.Wf) (d : Nat) : ∀ c ∈ dsClauses b g d, (c.map Prod.snd).Nodup := by
  intro c hc
  unfold dsClauses at hc
  simp only [List.mem_append] at hc
  rcases hc with ((hc | hc) | hc) | hc
  · unfold dsIndex at hc
    split at hc
    · obtain ⟨⟨u, v⟩, hp, hc⟩ := List.mem_flatMap.1 hc
      obtain ⟨i, hi, rfl⟩ := List.mem_map.1 hc
      have hlt := ((mem_pairs_sorted hg.sorted).1 hp).2.2
      exact nodup4 (fun e => by have := dsD_inj e; simp at this; omega) dsDM dsDM dsDM dsDM
        (fun e => by have := (dsM_inj e).1; simp at this; omega)
    · obtain ⟨i, hi, hc⟩ := List.mem_flatMap.1 hc
      exact map_nodup_sub (fun a b e => (dsM_inj e).1) hg.verts_nodup (mem_inequality hc)
  · unfold dsOrder at hc
    split at hc
    · obtain ⟨v, hv, hc⟩ := List.mem_flatMap.1 hc
      obtain ⟨⟨i, j⟩, hp, rfl⟩ := List.mem_map.1 hc
      have hlt := (oneTo_pairs.1 hp).2.2
      exact nodup3 dsDM dsDM (fun e => by have := (dsM_inj e).2; simp at this; omega)
    · obtain ⟨⟨i, j⟩, hp, hc⟩ := List.mem_flatMap.1 hc
      obtain ⟨⟨u, v⟩, hq, rfl⟩ := List.mem_map.1 hc
      have hlt := ((mem_pairs_sorted hg.sorted).1 hq).2.2
      exact nodup2 (fun e => by have := (dsM_inj e).1; simp at this; omega)
  · unfold dsLink at hc
    rcases List.mem_append.1 hc with hc | hc
    · split at hc
      · simp at hc
      · obtain ⟨i, hi, hc⟩ := List.mem_flatMap.1 hc
        obtain ⟨v, hv, rfl⟩ := List.mem_map.1 hc
        exact nodup2 dsDM.symm
    · obtain ⟨v, hv, rfl⟩ := List.mem_map.1 hc
      rw [List.map_cons, List.nodup_cons, List.map_map]
      refine ⟨fun h => ?_, List.Nodup.map (fun a b e => (dsM_inj e).2) (oneTo_nodup d)⟩
      obtain ⟨i, _, e⟩ := List.mem_map.1 h
      exact dsDM e.symm
  · obtain ⟨N, hN, rfl⟩ := List.mem_map.1 hc
    obtain ⟨v, hv, rfl⟩ := mem_neighborhoods.1 hN
    rw [List.map_map]
    exact List.Nodup.map (fun a b e => dsD_inj e) (closedNbhd_nodup hg v)

/-- **C61.** For every graph, every bound and both variants, the formula is built, and is satisfiable exactly when the graph has a
dominating set of at most that many vertices. -/
theorem C61_dominating_set (g : Graph) (hg : g.Wf) (d : Nat) (alternative : Bool) :
    ∃ F, dominatingSet g d alternative = pure F ∧ (Spec.Satisfiable F.clauses ↔ HasDominatingSet g d) := by
  obtain ⟨F, hF, hc⟩ := CNF.ofPartsLoose_ok (vs := dsVars g d) (ds_nodup alternative hg d)
  refine ⟨F, hF, ?_⟩
  rw [hc.sat]
  unfold dsClauses
  simp only [allTrue_append]
  constructor
  · rintro ⟨α, ⟨⟨hI, hO⟩, hL⟩, hN⟩
    have hdom : ∀ v ∈ g.verts, ∃ u ∈ closedNbhd g v, α (dsD u) = true := by
      intro v hv
      have := (allTrue_map α _ _).1 hN _ (mem_neighborhoods.2 ⟨v, hv, rfl⟩)
      obtain ⟨l, hl, ht⟩ := this
      obtain ⟨u, hu, rfl⟩ := List.mem_map.1 hl
      exact ⟨u, hu, ht⟩
    have hidx : ∀ v ∈ g.verts, α (dsD v) = true → ∃ i ∈ oneTo d, α (dsM v i) = true := by
      intro v hv ht
      unfold dsLink at hL
      rw [allTrue_append] at hL
      have := (allTrue_map α _ _).1 hL.2 v hv
      rw [clauseTrue_cons] at this
      rcases this with h | ⟨l, hl, h⟩
      · simp [ht] at h
      · obtain ⟨i, hi, rfl⟩ := List.mem_map.1 hl
        exact ⟨i, hi, h⟩
    have hinj : ∀ u ∈ g.verts, ∀ v ∈ g.verts, ∀ i ∈ oneTo d, α (dsD u) = true → α (dsD v) = true → α (dsM u i) = true → α (dsM v i) = true → u = v := by
      intro u hu v hv i hi h1 h2 h3 h4
      unfold dsIndex at hI
      cases alternative with
      | false =>
        simp only [Bool.false_eq_true, if_false] at hI
        rw [allTrue_flatMap] at hI
        exact (allTrue_leOne α _ _ hg.verts_nodup).1 (hI i hi) u hu v hv h3 h4
      | true =>
        simp only [if_true, allTrue_flatMap, allTrue_map, Prod.forall, mem_pairs_sorted hg.sorted] at hI
        by_contra hne
        rcases Nat.lt_or_gt_of_ne hne with h | h
        · have := hI u v ⟨hu, hv, h⟩ i hi
          simp [clauseTrue_cons, clauseTrue_nil, h1, h2, h3, h4] at this
        · have := hI v u ⟨hv, hu, h⟩ i hi
          simp [clauseTrue_cons, clauseTrue_nil, h1, h2, h3, h4] at this
    choose! f hf using hidx
    refine ⟨(g.verts.filter fun v => α (dsD v)).toFinset, ?_, ?_, ?_⟩
    · intro v hv; simp at hv; exact hv.1
    · have h0 : ((g.verts.filter fun v => α (dsD v)).toFinset.image f).card = (g.verts.filter fun v => α (dsD v)).toFinset.card := by
        refine Finset.card_image_of_injOn fun u hu v hv e => ?_
        simp at hu hv
        have e : f u = f v := e
        exact hinj u hu.1 v hv.1 (f u) (hf u hu.1 hu.2).1 hu.2 hv.2 (hf u hu.1 hu.2).2 (e ▸ (hf v hv.1 hv.2).2)
      rw [← h0]
      have hsub : (g.verts.filter fun v => α (dsD v)).toFinset.image f ⊆ Finset.Icc 1 d := by
        intro i hi
        obtain ⟨v, hv, rfl⟩ := Finset.mem_image.1 hi
        simp at hv
        exact Finset.mem_Icc.2 (mem_oneTo.1 (hf v hv.1 hv.2).1)
      simpa using Finset.card_le_card hsub
    · intro v hv
      obtain ⟨u, hu, ht⟩ := hdom v hv
      rcases mem_closedNbhd.1 hu with rfl | ⟨h1, h2⟩
      · exact .inl (by simp [hv, ht])
      · exact .inr ⟨u, by simp [h1, ht], h2⟩
  · rintro ⟨S, hS, hcard, hdom⟩
    let f : Nat → Nat := fun v => (S.filter (· ≤ v)).card
    have hf : ∀ v ∈ S, 1 ≤ f v ∧ f v ≤ d := by
      intro v hv
      refine ⟨Finset.card_pos.2 ⟨v, by simp [hv]⟩, (Finset.card_le_card (Finset.filter_subset _ _)).trans hcard⟩
    have hlt : ∀ u ∈ S, ∀ v ∈ S, u < v → f u < f v := by
      intro u hu v hv h
      refine Finset.card_lt_card ⟨fun w hw => ?_, fun hs => ?_⟩
      · simp at hw ⊢; exact ⟨hw.1, by omega⟩
      · have := hs (show v ∈ S.filter (· ≤ v) by simp [hv])
        simp at this; omega
    have hinj : ∀ u ∈ S, ∀ v ∈ S, f u = f v → u = v := by
      intro u hu v hv e
      by_contra hne
      rcases Nat.lt_or_gt_of_ne hne with h | h
      · have := hlt u hu v hv h; omega
      · have := hlt v hv u hu h; omega
    obtain ⟨α, hD, hM⟩ := exists_ds (fun v => v ∈ S) (fun v i => v ∈ S ∧ i = f v)
    refine ⟨α, ⟨⟨?_, ?_⟩, ?_⟩, ?_⟩
    · unfold dsIndex
      cases alternative with
      | false =>
        simp only [Bool.false_eq_true, if_false]
        rw [allTrue_flatMap]
        intro i hi
        refine (allTrue_leOne α _ _ hg.verts_nodup).2 fun u _ v _ h1 h2 => ?_
        rw [hM] at h1 h2
        exact hinj u h1.1 v h2.1 (by rw [← h1.2, ← h2.2])
      | true =>
        simp only [if_true, allTrue_flatMap, allTrue_map, Prod.forall, mem_pairs_sorted hg.sorted]
        rintro u v ⟨_, _, hlt'⟩ i _
        simp only [clauseTrue_cons, clauseTrue_nil, or_false]
        by_contra hcon
        simp only [not_or, Bool.not_eq_false, hD, hM] at hcon
        have := hinj u hcon.1 v hcon.2.1 (by rw [← hcon.2.2.1.2, ← hcon.2.2.2.2])
        omega
    · unfold dsOrder
      cases alternative with
      | false =>
        simp only [Bool.false_eq_true, if_false, allTrue_flatMap, allTrue_map, Prod.forall, mem_pairs_sorted hg.sorted, mem_replPairs_sorted (oneTo_sorted d)]
        rintro i j ⟨_, _, hij⟩ u v ⟨_, _, huv⟩
        rw [max_eq_right huv.le, min_eq_left huv.le, max_eq_right hij, min_eq_left hij]
        simp only [clauseTrue_cons, clauseTrue_nil, or_false]
        by_contra hcon
        simp only [not_or, Bool.not_eq_false, hM] at hcon
        have := hlt u hcon.2.1 v hcon.1.1 huv
        omega
      | true =>
        simp only [if_true, allTrue_flatMap, allTrue_map, Prod.forall, oneTo_pairs]
        rintro v _ i j ⟨_, _, hij⟩
        simp only [clauseTrue_cons, clauseTrue_nil, or_false]
        by_contra hcon
        simp only [not_or, Bool.not_eq_false, hD, hM] at hcon
        omega
    · unfold dsLink
      rw [allTrue_append]
      constructor
      · cases alternative with
        | true => simp [allTrue_nil]
        | false =>
          simp only [Bool.false_eq_true, if_false, allTrue_flatMap, allTrue_map]
          intro i _ v _
          simp only [clauseTrue_cons, clauseTrue_nil, or_false, hD]
          by_cases hv : v ∈ S
          · exact .inr hv
          · left
            rw [← Bool.not_eq_true, hM]; tauto
      · rw [allTrue_map]
        intro v _
        rw [clauseTrue_cons]
        by_cases hv : v ∈ S
        · exact .inr ⟨(true, dsM v (f v)), List.mem_map.2 ⟨f v, mem_oneTo.2 (hf v hv), rfl⟩, (hM _ _).2 ⟨hv, rfl⟩⟩
        · left; show α (dsD v) = false
          rw [← Bool.not_eq_true, hD]; exact hv
    · rw [allTrue_map]
      intro N hN
      obtain ⟨v, hv, rfl⟩ := mem_neighborhoods.1 hN
      rcases hdom v hv with h | ⟨u, hu, he⟩
      · exact ⟨(true, dsD v), List.mem_map.2 ⟨v, mem_closedNbhd.2 (.inl rfl), rfl⟩, (hD v).2 h⟩
      · exact ⟨(true, dsD u), List.mem_map.2 ⟨u, mem_closedNbhd.2 (.inr ⟨hS u hu, he⟩), rfl⟩, (hD u).2 hu⟩

/-- A path of three vertices: the middle vertex dominates; two disjoint edges need two vertices. -/
example (b : Bool) : (∃ F, dominatingSet ⟨[0, 1, 2], [(0, 1), (1, 2)]⟩ 1 b = pure F ∧ Spec.Satisfiable F.clauses) ∧
    ∃ F, dominatingSet ⟨[0, 1, 2, 3], [(0, 1), (2, 3)]⟩ 1 b = pure F ∧ ¬ Spec.Satisfiable F.clauses := by
  obtain ⟨F, h1, h2⟩ := C61_dominating_set ⟨[0, 1, 2], [(0, 1), (1, 2)]⟩ ⟨by decide, by decide, by decide, by decide⟩ 1 b
  obtain ⟨G, h3, h4⟩ := C61_dominating_set ⟨[0, 1, 2, 3], [(0, 1), (2, 3)]⟩ ⟨by decide, by decide, by decide, by decide⟩ 1 b
  refine ⟨⟨F, h1, h2.2 ⟨{1}, by simp, by simp, by decide⟩⟩, G, h3, fun h => ?_⟩
  obtain ⟨S, h5, h6, h7⟩ := h4.1 h
  have hS : ∀ x ∈ S, ∀ y ∈ S, x = y := Finset.card_le_one.1 h6
  have a : ∃ x ∈ S, x = 0 ∨ x = 1 := by
    rcases h7 0 (by decide) with h | ⟨u, hu, he⟩
    · exact ⟨0, h, .inl rfl⟩
    · refine ⟨u, hu, ?_⟩
      rw [Graph.hasEdge_iff] at he; simp at he; omega
  have b : ∃ x ∈ S, x = 2 ∨ x = 3 := by
    rcases h7 2 (by decide) with h | ⟨u, hu, he⟩
    · exact ⟨2, h, .inl rfl⟩
    · refine ⟨u, hu, ?_⟩
      rw [Graph.hasEdge_iff] at he; simp at he; omega
  obtain ⟨x, hx, hx2⟩ := a
  obtain ⟨y, hy, hy2⟩ := b
  have := hS x hx y hy
  omega

end NDP.Cnfgen
