import Verif.Cnfgen.Graph
/-
  Model of `families/ordering.py`, and C51.
-/
namespace NDP.Cnfgen
open NDP

/-- `families/ordering.py` 31-32 (`varname`). -/
def xn (u v : Nat) : Str := fmt2 "x".toList u v

/-- `families/ordering.py` 66-85: the non minimality axioms. -/
def ordNonMin (g : Graph) (smart plant : Bool) : List (List (Lit Str)) :=
  (List.range (g.verts.length - (if plant then 1 else 0))).map fun med =>
    let m := g.verts.getD med 0
    ((g.verts.take med).filter fun lo => g.hasEdge m lo).map (fun lo => (true, xn lo m)) ++
    ((g.verts.drop (med + 1)).filter fun hi => g.hasEdge m hi).map
      (fun hi => if smart then (false, xn m hi) else (true, xn hi m))

/-- `families/ordering.py` 91-139: the transitivity axioms (there is no triple of fewer than three vertices). -/
def ordTrans (g : Graph) (total smart : Bool) (knuth : Int) : List (List (Lit Str)) :=
  if smart then (triples g.verts).flatMap fun t =>
    [[(true, xn t.1 t.2.1), (true, xn t.2.1 t.2.2), (false, xn t.1 t.2.2)],
     [(false, xn t.1 t.2.1), (false, xn t.2.1 t.2.2), (true, xn t.1 t.2.2)]]
  else if total then (triples g.verts).flatMap fun t =>
    [[(false, xn t.1 t.2.1), (false, xn t.2.1 t.2.2), (false, xn t.2.2 t.1)],
     [(false, xn t.1 t.2.2), (false, xn t.2.2 t.2.1), (false, xn t.2.1 t.1)]]
  else ((permTriples g.verts).filter fun t =>
      !(decide (knuth = 2) && (decide (t.2.1 < t.1) || decide (t.2.1 < t.2.2))) &&
      !(decide (knuth = 3) && (decide (t.2.2 < t.1) || decide (t.2.2 < t.2.1)))).map fun t =>
    [(false, xn t.1 t.2.1), (false, xn t.2.1 t.2.2), (true, xn t.1 t.2.2)]

/-- `families/ordering.py` 141-153: antisymmetry and totality. -/
def ordTotal (g : Graph) (total smart : Bool) : List (List (Lit Str)) :=
  if smart then [] else
    ((pairs g.verts).map fun p => [(false, xn p.1 p.2), (false, xn p.2 p.1)]) ++
    (if total then (pairs g.verts).map fun p => [(true, xn p.1 p.2), (true, xn p.2 p.1)] else [])

/-- `families/ordering.py` 35-155 (`GraphOrderingPrinciple`). -/
def graphOrdering (g : Graph) (total smart plant : Bool) (knuth : Int) : M (CNF Str) :=
  CNF.ofPartsStrict (((if smart then pairs g.verts else permPairs g.verts)).map fun p => xn p.1 p.2)
    (ordNonMin g smart plant ++ ordTrans g total smart knuth ++ ordTotal g total smart)

/-- `families/ordering.py` 18-28 (`OrderingPrinciple`). -/
def ordering (size : Nat) (total smart plant : Bool) (knuth : Int) : M (CNF Str) :=
  graphOrdering (Graph.complete size) total smart plant knuth

/-- Every two vertices are joined by a path. -/
def Graph.Connected (g : Graph) : Prop :=
  ∀ u ∈ g.verts, ∀ v ∈ g.verts, Relation.ReflTransGen (fun a b => g.hasEdge a b = true) u v

/-- `u` comes before `v`, as the variables say. -/
def ordLt (smart : Bool) (α : Str → Bool) (u v : Nat) : Prop :=
  if smart then (if u < v then α (xn u v) = true else α (xn v u) = false) else α (xn u v) = true

theorem sorted_split {l : List Nat} (h : l.Pairwise (· < ·)) {k : Nat} (hk : k < l.length) :
    (∀ u, u ∈ l.take k ↔ u ∈ l ∧ u < l[k]) ∧ (∀ u, u ∈ l.drop (k + 1) ↔ u ∈ l ∧ l[k] < u) := by
  have e : l = l.take k ++ l[k] :: l.drop (k + 1) := by rw [List.getElem_cons_drop, List.take_append_drop]
  have h2 := h
  rw [e, List.pairwise_append, List.pairwise_cons] at h2
  obtain ⟨_, ⟨hr, _⟩, hl⟩ := h2
  have hm : ∀ u, u ∈ l ↔ u ∈ l.take k ∨ u = l[k] ∨ u ∈ l.drop (k + 1) := by
    intro u
    conv_lhs => rw [e]
    rw [List.mem_append, List.mem_cons]
  constructor
  · intro u
    rw [hm]
    constructor
    · intro hu; exact ⟨.inl hu, hl u hu _ List.mem_cons_self⟩
    · rintro ⟨hu | hu | hu, hlt⟩
      · exact hu
      · omega
      · have := hr u hu; omega
  · intro u
    rw [hm]
    constructor
    · intro hu; exact ⟨.inr (.inr hu), hr u hu⟩
    · rintro ⟨hu | hu | hu, hlt⟩
      · have := hl u hu l[k] List.mem_cons_self; omega
      · omega
      · exact hu

theorem nonMin_clause {g : Graph} (hg : g.Wf) (smart : Bool) {k : Nat} (hk : k < g.verts.length) (α : Str → Bool) :
    ClauseTrue α (((g.verts.take k).filter fun lo => g.hasEdge g.verts[k] lo).map (fun lo => (true, xn lo g.verts[k])) ++
      ((g.verts.drop (k + 1)).filter fun hi => g.hasEdge g.verts[k] hi).map
        (fun hi => if smart then (false, xn g.verts[k] hi) else (true, xn hi g.verts[k]))) ↔
    ∃ u ∈ g.verts, g.hasEdge g.verts[k] u = true ∧ ordLt smart α u g.verts[k] := by
  obtain ⟨h1, h2⟩ := sorted_split hg.sorted hk
  rw [clauseTrue_append]
  constructor
  · rintro (⟨l, hl, ht⟩ | ⟨l, hl, ht⟩)
    · obtain ⟨u, hu, rfl⟩ := List.mem_map.1 hl
      obtain ⟨hu, he⟩ := List.mem_filter.1 hu
      have := (h1 u).1 hu
      refine ⟨u, this.1, he, ?_⟩
      unfold ordLt
      split
      · rw [if_pos this.2]; exact ht
      · exact ht
    · obtain ⟨u, hu, rfl⟩ := List.mem_map.1 hl
      obtain ⟨hu, he⟩ := List.mem_filter.1 hu
      have := (h2 u).1 hu
      refine ⟨u, this.1, he, ?_⟩
      unfold ordLt
      split
      · rename_i hs
        rw [if_neg (by omega)]; simpa [hs] using ht
      · rename_i hs
        simpa [hs] using ht
  · rintro ⟨u, hu, he, hlt⟩
    have hne := hg.hasEdge_ne he
    rcases Nat.lt_or_gt_of_ne hne with h | h
    · refine .inr ⟨_, List.mem_map_of_mem (List.mem_filter.2 ⟨(h2 u).2 ⟨hu, h⟩, he⟩), ?_⟩
      unfold ordLt at hlt
      split at hlt
      · rename_i hs
        rw [if_neg (by omega)] at hlt; simpa [hs] using hlt
      · rename_i hs
        simpa [hs] using hlt
    · refine .inl ⟨_, List.mem_map_of_mem (List.mem_filter.2 ⟨(h1 u).2 ⟨hu, h⟩, he⟩), ?_⟩
      unfold ordLt at hlt
      split at hlt
      · first | exact hlt | (rw [if_pos h] at hlt; exact hlt)
      · exact hlt

/-- The vertices that may not be minimal. -/
def nonMinVerts (g : Graph) (plant : Bool) : List Nat := if plant then g.verts.dropLast else g.verts

theorem allTrue_nonMin {g : Graph} (hg : g.Wf) (smart plant : Bool) (α : Str → Bool) :
    AllTrue α (ordNonMin g smart plant) ↔
      ∀ v ∈ nonMinVerts g plant, ∃ u ∈ g.verts, g.hasEdge v u = true ∧ ordLt smart α u v := by
  have hmem : ∀ v, v ∈ nonMinVerts g plant ↔ ∃ k, ∃ h : k < g.verts.length, k < g.verts.length - (if plant then 1 else 0) ∧ g.verts[k] = v := by
    intro v
    cases plant with
    | false =>
      simp only [nonMinVerts, Bool.false_eq_true, if_false, List.mem_iff_getElem, Nat.sub_zero]
      constructor
      · rintro ⟨k, h, e⟩; exact ⟨k, h, h, e⟩
      · rintro ⟨k, h, _, e⟩; exact ⟨k, h, e⟩
    | true =>
      simp only [nonMinVerts, if_true, List.mem_iff_getElem, List.length_dropLast, List.getElem_dropLast]
      constructor
      · rintro ⟨k, h, e⟩; exact ⟨k, by omega, h, e⟩
      · rintro ⟨k, _, h, e⟩; exact ⟨k, h, e⟩
  unfold ordNonMin
  rw [allTrue_map]
  constructor
  · intro h v hv
    obtain ⟨k, hk, hk2, rfl⟩ := (hmem v).1 hv
    have := h k (List.mem_range.2 hk2)
    simp only [List.getD_eq_getElem?_getD, List.getElem?_eq_getElem hk, Option.getD_some] at this
    exact (nonMin_clause hg smart hk α).1 this
  · intro h k hk2
    have hk2 := List.mem_range.1 hk2
    have hk : k < g.verts.length := by omega
    simp only [List.getD_eq_getElem?_getD, List.getElem?_eq_getElem hk, Option.getD_some]
    exact (nonMin_clause hg smart hk α).2 (h _ ((hmem _).2 ⟨k, hk, hk2, rfl⟩))

/-- The three forms of transitivity. -/
def OrdTr (V : List Nat) (lt : Nat → Nat → Prop) : Prop :=
  (∀ a ∈ V, ∀ b ∈ V, ∀ c ∈ V, a ≠ b → b ≠ c → a ≠ c → a ≤ b → c ≤ b → lt a b → lt b c → lt a c) ∨
  (∀ a ∈ V, ∀ b ∈ V, ∀ c ∈ V, a ≠ b → b ≠ c → a ≠ c → a ≤ c → b ≤ c → lt a b → lt b c → lt a c)

/-- No non-empty set of vertices in which everything has something before it. -/
theorem no_closed {V : List Nat} {lt : Nat → Nat → Prop} (hanti : ∀ a ∈ V, ∀ b ∈ V, a ≠ b → lt a b → ¬ lt b a) (htr : OrdTr V lt) :
    ∀ (n : Nat) (D : Nat → Prop), (∀ v, D v → v ∈ V ∧ v < n) → (∀ v, D v → ∃ u, D u ∧ u ≠ v ∧ lt u v) → ∀ v, ¬ D v := by
  intro n
  induction n with
  | zero => intro D h _ v hv; have := h v hv; omega
  | succ n ih =>
    intro D hD hpre v hv
    by_cases hn : D n
    · rcases htr with htr | htr
      · -- drop the largest element
        refine ih (fun v => D v ∧ v ≠ n) (fun v ⟨h, hne⟩ => ⟨(hD v h).1, by have := (hD v h).2; omega⟩) ?_
          (hpre n hn).choose ⟨(hpre n hn).choose_spec.1, (hpre n hn).choose_spec.2.1⟩
        · rintro v ⟨hv, hne⟩
          obtain ⟨u, hu, huv, hlt⟩ := hpre v hv
          by_cases hun : u = n
          · subst hun
            obtain ⟨w, hw, hwu, hwlt⟩ := hpre u hu
            have hwv : w ≠ v := by
              rintro rfl
              exact hanti w (hD w hw).1 u (hD u hu).1 hwu hwlt hlt
            exact ⟨w, ⟨hw, hwu⟩, hwv, htr w (hD w hw).1 u (hD u hu).1 v (hD v hv).1 hwu huv hwv
              (by have := (hD w hw).2; omega) (by have := (hD v hv).2; omega) hwlt hlt⟩
          · exact ⟨u, ⟨hu, hun⟩, huv, hlt⟩
      · -- keep what is before the largest element
        refine ih (fun v => D v ∧ v ≠ n ∧ lt v n) (fun v ⟨h, hne, _⟩ => ⟨(hD v h).1, by have := (hD v h).2; omega⟩) ?_
          (hpre n hn).choose ⟨(hpre n hn).choose_spec.1, (hpre n hn).choose_spec.2.1, (hpre n hn).choose_spec.2.2⟩
        · rintro v ⟨hv, hne, hvn⟩
          obtain ⟨u, hu, huv, hlt⟩ := hpre v hv
          have hun : u ≠ n := by
            rintro rfl
            exact hanti v (hD v hv).1 u (hD u hu).1 hne hvn hlt
          exact ⟨u, ⟨hu, hun, htr u (hD u hu).1 v (hD v hv).1 n (hD n hn).1 huv hne hun
            (by have := (hD u hu).2; omega) (by have := (hD v hv).2; omega) hlt hvn⟩, huv, hlt⟩
    · exact ih D (fun v h => ⟨(hD v h).1, by
        have := (hD v h).2
        have : v ≠ n := by rintro rfl; exact hn h
        omega⟩) hpre v hv

theorem ord_forward {g : Graph} (hg : g.Wf) (total smart : Bool) (knuth : Int) (α : Str → Bool)
    (h1 : AllTrue α (ordTrans g total smart knuth)) (h2 : AllTrue α (ordTotal g total smart)) :
    (∀ a ∈ g.verts, ∀ b ∈ g.verts, a ≠ b → ordLt smart α a b → ¬ ordLt smart α b a) ∧ OrdTr g.verts (ordLt smart α) := by
  cases smart with
  | true =>
    simp only [ordTrans, if_true, allTrue_flatMap, allTrue_cons, clauseTrue_cons, clauseTrue_nil, or_false, allTrue_nil, and_true, Prod.forall,
      mem_triples_sorted hg.sorted] at h1
    refine ⟨?_, .inl ?_⟩
    · intro a _ b _ hne hab hba
      simp only [ordLt, if_true] at hab hba
      rcases Nat.lt_or_gt_of_ne hne with h | h
      · rw [if_pos h] at hab; rw [if_neg (by omega)] at hba; simp [hab] at hba
      · rw [if_neg (by omega)] at hab; rw [if_pos h] at hba; simp [hab] at hba
    · intro a ha b hb c hc hab hbc hac _ _ l1 l2
      simp only [ordLt, if_true] at l1 l2 ⊢
      rcases Nat.lt_or_gt_of_ne hac with h | h
      · rw [if_pos h]
        have := h1 a c b ⟨ha, hc, hb, h, by omega⟩
        rw [if_pos (by omega)] at l1
        rw [if_neg (by omega)] at l2
        simp [l1, l2] at this
        exact this
      · rw [if_neg (by omega)]
        have := h1 c a b ⟨hc, ha, hb, h, by omega⟩
        rw [if_pos (by omega)] at l1
        rw [if_neg (by omega)] at l2
        simp [l1, l2] at this
        exact this
  | false =>
    simp only [ordTotal, Bool.false_eq_true, if_false, allTrue_append, allTrue_map, allTrue_ite, clauseTrue_cons, clauseTrue_nil, or_false, Prod.forall,
      mem_pairs_sorted hg.sorted] at h2
    obtain ⟨ha, ht⟩ := h2
    have hanti : ∀ a ∈ g.verts, ∀ b ∈ g.verts, a ≠ b → α (xn a b) = true → ¬ α (xn b a) = true := by
      intro a hma b hmb hne hab hba
      rcases Nat.lt_or_gt_of_ne hne with h | h
      · have := ha a b ⟨hma, hmb, h⟩; simp [hab, hba] at this
      · have := ha b a ⟨hmb, hma, h⟩; simp [hab, hba] at this
    refine ⟨by simpa only [ordLt, Bool.false_eq_true, if_false] using hanti, ?_⟩
    cases total with
    | true =>
      have ht : ∀ a ∈ g.verts, ∀ b ∈ g.verts, a ≠ b → α (xn a b) = true ∨ α (xn b a) = true := by
        intro a hma b hmb hne
        rcases Nat.lt_or_gt_of_ne hne with h | h
        · exact ht rfl a b ⟨hma, hmb, h⟩
        · exact (ht rfl b a ⟨hmb, hma, h⟩).symm
      simp only [ordTrans, Bool.false_eq_true, if_false, if_true, allTrue_flatMap, allTrue_cons, clauseTrue_cons, clauseTrue_nil, or_false, allTrue_nil, and_true,
        Prod.forall, mem_triples_sorted hg.sorted] at h1
      refine .inl ?_
      intro a ha b hb c hc hab hbc hac _ _ l1 l2
      simp only [ordLt, Bool.false_eq_true, if_false] at l1 l2 ⊢
      rcases ht a ha c hc hac with h | hca
      · exact h
      · exfalso
        rcases Nat.lt_or_gt_of_ne hac with h | h
        · have := (h1 a c b ⟨ha, hc, hb, h, by omega⟩).2
          simp [l1, l2, hca] at this
        · have := (h1 c a b ⟨hc, ha, hb, h, by omega⟩).1
          simp [l1, l2, hca] at this
    | false =>
      simp only [ordTrans, Bool.false_eq_true, if_false, allTrue_map, clauseTrue_cons, clauseTrue_nil, or_false,
        Prod.forall, List.mem_filter, mem_permTriples hg.verts_nodup] at h1
      by_cases hk : knuth = 3
      · refine .inr ?_
        intro a ha b hb c hc hab hbc hac l1 l2 t1 t2
        have := h1 a b c ⟨⟨ha, hb, hc, hab, hbc, hac⟩, by simp [hk]; try omega⟩
        simp only [ordLt, Bool.false_eq_true, if_false] at t1 t2 ⊢
        simp [t1, t2] at this; exact this
      · refine .inl ?_
        intro a ha b hb c hc hab hbc hac l1 l2 t1 t2
        have := h1 a b c ⟨⟨ha, hb, hc, hab, hbc, hac⟩, by simp [hk]; try omega⟩
        simp only [ordLt, Bool.false_eq_true, if_false] at t1 t2 ⊢
        simp [t1, t2] at this; exact this

/-- A total order satisfies the axioms. -/
theorem ord_backward {g : Graph} (hg : g.Wf) (total smart : Bool) (knuth : Int) (r : Nat → Nat) (α : Str → Bool)
    (ha : ∀ i j, α (xn i j) = true ↔ (r i < r j ∨ (r i = r j ∧ i < j))) :
    AllTrue α (ordTrans g total smart knuth) ∧ AllTrue α (ordTotal g total smart) := by
  have hf : ∀ i j, α (xn i j) = false ↔ ¬ (r i < r j ∨ (r i = r j ∧ i < j)) := by
    intro i j; rw [← ha]; simp
  cases smart with
  | true =>
    simp only [ordTrans, ordTotal, if_true, allTrue_flatMap, allTrue_cons, clauseTrue_cons, clauseTrue_nil, or_false, allTrue_nil, and_true, Prod.forall,
      mem_triples_sorted hg.sorted]
    rintro a b c ⟨_, _, _, h1, h2⟩
    simp only [ha, hf]; omega
  | false =>
    constructor
    · cases total with
      | true =>
        simp only [ordTrans, Bool.false_eq_true, if_false, if_true, allTrue_flatMap, allTrue_cons, clauseTrue_cons, clauseTrue_nil, or_false, allTrue_nil, and_true,
          Prod.forall, mem_triples_sorted hg.sorted]
        rintro a b c ⟨_, _, _, h1, h2⟩
        simp only [hf]; omega
      | false =>
        simp only [ordTrans, Bool.false_eq_true, if_false, allTrue_map, clauseTrue_cons, clauseTrue_nil, or_false,
          Prod.forall, List.mem_filter, mem_permTriples hg.verts_nodup]
        rintro a b c _
        simp only [ha, hf]; omega
    · simp only [ordTotal, Bool.false_eq_true, if_false, allTrue_append, allTrue_map, allTrue_ite, clauseTrue_cons, clauseTrue_nil, or_false, Prod.forall,
        mem_pairs_sorted hg.sorted]
      constructor
      · rintro a b ⟨_, _, h⟩; simp only [hf]; omega
      · rintro _ a b ⟨_, _, h⟩; simp only [ha]; omega

/-! ### Distances -/

/-- A walk of length `n`. -/
inductive Walk (R : Nat → Nat → Prop) (z : Nat) : Nat → Nat → Prop
  | nil : Walk R z 0 z
  | snoc {n u v} : Walk R z n u → R u v → Walk R z (n + 1) v

theorem exists_walk {R : Nat → Nat → Prop} {z v : Nat} (h : Relation.ReflTransGen R z v) : ∃ n, Walk R z n v := by
  induction h with
  | refl => exact ⟨0, .nil⟩
  | tail _ h ih => obtain ⟨n, hn⟩ := ih; exact ⟨n + 1, hn.snoc h⟩

/-- A rank that decreases along some edge at every vertex reachable from `z`, other than `z`. -/
theorem exists_rank (R : Nat → Nat → Prop) (z : Nat) :
    ∃ r : Nat → Nat, ∀ v, Relation.ReflTransGen R z v → v ≠ z → ∃ u, R u v ∧ r u < r v := by
  classical
  refine ⟨fun v => if h : ∃ n, Walk R z n v then Nat.find h else 0, fun v hv hne => ?_⟩
  have hw := exists_walk hv
  have hs := Nat.find_spec hw
  simp only
  rw [dif_pos hw]
  cases hn : Nat.find hw with
  | zero => rw [hn] at hs; cases hs; exact absurd rfl hne
  | succ n =>
    rw [hn] at hs
    cases hs with
    | snoc h1 h2 =>
      rename_i u
      refine ⟨u, h2, ?_⟩
      have hu : ∃ n, Walk R z n u := ⟨n, h1⟩
      rw [dif_pos hu]
      exact Nat.lt_succ_of_le (Nat.find_le h1)

/-! ### The formula is well formed -/

theorem xn_inj {a b c d : Nat} (h : xn a b = xn c d) : a = c ∧ b = d := fmt2_inj h

theorem mem_ordVars {g : Graph} (hg : g.Wf) {smart : Bool} {u v : Nat} (hu : u ∈ g.verts) (hv : v ∈ g.verts)
    (h : if smart then u < v else u ≠ v) :
    xn u v ∈ ((if smart then pairs g.verts else permPairs g.verts)).map fun p => xn p.1 p.2 := by
  refine List.mem_map.2 ⟨(u, v), ?_, rfl⟩
  cases smart with
  | true => simpa using (mem_pairs_sorted hg.sorted).2 ⟨hu, hv, by simpa using h⟩
  | false => simpa using (mem_permPairs hg.verts_nodup).2 ⟨hu, hv, by simpa using h⟩

theorem ord_wf {g : Graph} (hg : g.Wf) (total smart plant : Bool) (knuth : Int) :
    ∀ c ∈ ordNonMin g smart plant ++ ordTrans g total smart knuth ++ ordTotal g total smart,
      (c.map Prod.snd).Nodup ∧ ∀ l ∈ c, l.2 ∈ ((if smart then pairs g.verts else permPairs g.verts)).map fun p => xn p.1 p.2 := by
  intro c hc
  simp only [List.mem_append] at hc
  rcases hc with (hc | hc) | hc
  · obtain ⟨k, hk, rfl⟩ := List.mem_map.1 hc
    have hk := List.mem_range.1 hk
    have hk : k < g.verts.length := by omega
    obtain ⟨h1, h2⟩ := sorted_split hg.sorted hk
    simp only [List.getD_eq_getElem?_getD, List.getElem?_eq_getElem hk, Option.getD_some]
    have hin : g.verts[k] ∈ g.verts := List.getElem_mem hk
    constructor
    · rw [List.map_append, List.map_map, List.map_map, List.nodup_append]
      refine ⟨?_, ?_, ?_⟩
      · refine List.Nodup.map (fun a b h => (xn_inj h).1) ((hg.verts_nodup.sublist (List.take_sublist _ _)).filter _)
      · refine List.Nodup.map (fun a b h => ?_) ((hg.verts_nodup.sublist (List.drop_sublist _ _)).filter _)
        cases smart
        · exact (xn_inj h).1
        · exact (xn_inj h).2
      · intro a ha b hb e
        obtain ⟨u, hu, rfl⟩ := List.mem_map.1 ha
        obtain ⟨w, hw, rfl⟩ := List.mem_map.1 hb
        have l1 := ((h1 u).1 (List.mem_filter.1 hu).1).2
        have l2 := ((h2 w).1 (List.mem_filter.1 hw).1).2
        cases smart
        · have := (xn_inj e).1; omega
        · have := xn_inj e; omega
    · intro l hl
      rcases List.mem_append.1 hl with hl | hl
      · obtain ⟨u, hu, rfl⟩ := List.mem_map.1 hl
        have := (h1 u).1 (List.mem_filter.1 hu).1
        exact mem_ordVars hg this.1 hin (by cases smart <;> simp <;> omega)
      · obtain ⟨u, hu, rfl⟩ := List.mem_map.1 hl
        have := (h2 u).1 (List.mem_filter.1 hu).1
        cases smart
        · exact mem_ordVars hg this.1 hin (by simp; omega)
        · exact mem_ordVars hg hin this.1 (by simp; omega)
  · have tri : ∀ a b c : Nat, ∀ p q s : Bool, a ≠ b → b ≠ c → a ≠ c →
        (([(p, xn a b), (q, xn b c), (s, xn a c)] : List (Lit Str)).map Prod.snd).Nodup := by
      intro a b c p q s h1 h2 h3
      have e1 : xn a b ≠ xn b c := fun e => h1 (xn_inj e).1
      have e2 : xn a b ≠ xn a c := fun e => h2 (xn_inj e).2
      have e3 : xn b c ≠ xn a c := fun e => h1 (xn_inj e).1.symm
      simp [e1, e2, e3]
    have cyc : ∀ a b c : Nat, ∀ p q s : Bool, a ≠ b → b ≠ c → a ≠ c →
        (([(p, xn a b), (q, xn b c), (s, xn c a)] : List (Lit Str)).map Prod.snd).Nodup := by
      intro a b c p q s h1 h2 h3
      have e1 : xn a b ≠ xn b c := fun e => h1 (xn_inj e).1
      have e2 : xn a b ≠ xn c a := fun e => h3 (xn_inj e).1
      have e3 : xn b c ≠ xn c a := fun e => h2 (xn_inj e).1
      simp [e1, e2, e3]
    unfold ordTrans at hc
    cases smart with
    | true =>
      simp only [if_true, List.mem_flatMap, Prod.exists, mem_triples_sorted hg.sorted] at hc
      obtain ⟨x, y, z, ⟨hx, hy, hz, h1, h2⟩, hc⟩ := hc
      have hv1 := mem_ordVars hg (smart := true) hx hy (by simpa using h1)
      have hv2 := mem_ordVars hg (smart := true) hy hz (by simpa using h2)
      have hv3 := mem_ordVars hg (smart := true) hx hz (by simp; omega)
      simp only [List.mem_cons, List.not_mem_nil, or_false] at hc
      rcases hc with rfl | rfl
      · refine ⟨tri _ _ _ _ _ _ (by omega) (by omega) (by omega), ?_⟩
        intro l hl
        simp only [List.mem_cons, List.not_mem_nil, or_false] at hl
        rcases hl with rfl | rfl | rfl <;> assumption
      · refine ⟨tri _ _ _ _ _ _ (by omega) (by omega) (by omega), ?_⟩
        intro l hl
        simp only [List.mem_cons, List.not_mem_nil, or_false] at hl
        rcases hl with rfl | rfl | rfl <;> assumption
    | false =>
      have hv := fun (u v : Nat) (hu : u ∈ g.verts) (hv : v ∈ g.verts) (h : u ≠ v) => mem_ordVars hg (smart := false) hu hv (by simpa using h)
      cases total with
      | true =>
        simp only [if_true, Bool.false_eq_true, if_false, List.mem_flatMap, Prod.exists, mem_triples_sorted hg.sorted] at hc
        obtain ⟨x, y, z, ⟨hx, hy, hz, h1, h2⟩, hc⟩ := hc
        simp only [List.mem_cons, List.not_mem_nil, or_false] at hc
        rcases hc with rfl | rfl
        · refine ⟨cyc _ _ _ _ _ _ (by omega) (by omega) (by omega), ?_⟩
          intro l hl
          simp only [List.mem_cons, List.not_mem_nil, or_false] at hl
          rcases hl with rfl | rfl | rfl <;> exact hv _ _ (by assumption) (by assumption) (by omega)
        · refine ⟨cyc _ _ _ _ _ _ (by omega) (by omega) (by omega), ?_⟩
          intro l hl
          simp only [List.mem_cons, List.not_mem_nil, or_false] at hl
          rcases hl with rfl | rfl | rfl <;> exact hv _ _ (by assumption) (by assumption) (by omega)
      | false =>
        simp only [Bool.false_eq_true, if_false, List.mem_map, List.mem_filter, Prod.exists, mem_permTriples hg.verts_nodup] at hc
        obtain ⟨x, y, z, ⟨⟨hx, hy, hz, h1, h2, h3⟩, _⟩, rfl⟩ := hc
        refine ⟨tri _ _ _ _ _ _ h1 h2 h3, ?_⟩
        intro l hl
        simp only [List.mem_cons, List.not_mem_nil, or_false] at hl
        rcases hl with rfl | rfl | rfl <;> exact hv _ _ (by assumption) (by assumption) (by assumption)
  · unfold ordTotal at hc
    cases smart with
    | true => simp at hc
    | false =>
      have key : ∀ x y, x ∈ g.verts → y ∈ g.verts → x < y → ∀ p q : Bool, (([(p, xn x y), (q, xn y x)] : List (Lit Str)).map Prod.snd).Nodup ∧
          ∀ l ∈ ([(p, xn x y), (q, xn y x)] : List (Lit Str)), l.2 ∈ ((if false = true then pairs g.verts else permPairs g.verts)).map fun p => xn p.1 p.2 := by
        intro x y hx hy h p q
        have e1 : xn x y ≠ xn y x := fun e => by have := xn_inj e; omega
        refine ⟨by simp [e1], ?_⟩
        intro l hl
        simp only [List.mem_cons, List.not_mem_nil, or_false] at hl
        rcases hl with rfl | rfl
        · exact mem_ordVars hg (smart := false) hx hy (by simp; omega)
        · exact mem_ordVars hg (smart := false) hy hx (by simp; omega)
      simp only [Bool.false_eq_true, if_false, List.mem_append, List.mem_map, Prod.exists, mem_pairs_sorted hg.sorted] at hc
      rcases hc with ⟨x, y, ⟨hx, hy, h⟩, rfl⟩ | hc
      · exact key x y hx hy h _ _
      · cases total with
        | false => simp at hc
        | true =>
          simp only [if_true, List.mem_map, Prod.exists, mem_pairs_sorted hg.sorted] at hc
          obtain ⟨x, y, ⟨hx, hy, h⟩, rfl⟩ := hc
          exact key x y hx hy h _ _

theorem exists_bound (l : List Nat) : ∃ n, ∀ v ∈ l, v < n := by
  induction l with
  | nil => exact ⟨0, by simp⟩
  | cons a l ih =>
    obtain ⟨n, hn⟩ := ih
    refine ⟨max n (a + 1), fun v hv => ?_⟩
    rcases List.mem_cons.1 hv with rfl | h
    · omega
    · have := hn v h; omega

/-- **C51.** The graph ordering formula, in all its variants, is satisfiable only for the empty graph, or when the last vertex may
be minimal and the graph is connected. -/
theorem C51_graph_ordering (g : Graph) (hg : g.Wf) (total smart plant : Bool) (knuth : Int) :
    ∃ F, graphOrdering g total smart plant knuth = pure F ∧
      (Spec.Satisfiable F.clauses ↔ g.verts = [] ∨ (plant = true ∧ g.Connected)) := by
  have hw := ord_wf hg total smart plant knuth
  obtain ⟨F, hF, hc⟩ := CNF.ofPartsStrict_ok (fun c h => (hw c h).1) (fun c h => (hw c h).2)
  refine ⟨F, hF, ?_⟩
  rw [hc.sat]
  simp only [allTrue_append, allTrue_nonMin hg]
  constructor
  · rintro ⟨α, ⟨hnm, ht⟩, hto⟩
    obtain ⟨hanti, htr⟩ := ord_forward hg total smart knuth α ht hto
    have hbig : ∃ n, ∀ v ∈ g.verts, v < n := exists_bound g.verts
    obtain ⟨n, hn⟩ := hbig
    by_cases hV : g.verts = []
    · exact .inl hV
    · right
      cases plant with
      | false =>
        exfalso
        obtain ⟨v, hv⟩ := List.exists_mem_of_ne_nil _ hV
        refine no_closed hanti htr n (fun v => v ∈ g.verts) (fun v h => ⟨h, hn v h⟩) ?_ v hv
        intro v hv
        obtain ⟨u, hu, he, hlt⟩ := hnm v hv
        exact ⟨u, hu, (hg.hasEdge_ne he).symm, hlt⟩
      | true =>
        refine ⟨rfl, ?_⟩
        let z := g.verts.getLast hV
        have hsym : ∀ a b, Relation.ReflTransGen (fun a b => g.hasEdge a b = true) a b →
            Relation.ReflTransGen (fun a b => g.hasEdge a b = true) b a := by
          intro a b h
          induction h with
          | refl => exact .refl
          | tail _ h ih => exact Relation.ReflTransGen.head (by rw [Graph.hasEdge_comm]; exact h) ih
        have hz : ∀ v ∈ g.verts, Relation.ReflTransGen (fun a b => g.hasEdge a b = true) z v := by
          intro v hv
          by_contra hno
          refine no_closed hanti htr n (fun v => v ∈ g.verts ∧ ¬ Relation.ReflTransGen (fun a b => g.hasEdge a b = true) z v)
            (fun v h => ⟨h.1, hn v h.1⟩) ?_ v ⟨hv, hno⟩
          rintro v ⟨hv, hno⟩
          have hvz : v ≠ z := by rintro rfl; exact hno .refl
          have hvm : v ∈ g.verts.dropLast := by
            have := List.dropLast_append_getLast hV
            rw [← this, List.mem_append, List.mem_singleton] at hv
            exact hv.resolve_right hvz
          obtain ⟨u, hu, he, hlt⟩ := hnm v hvm
          refine ⟨u, ⟨hu, fun hr => hno (hr.tail ?_)⟩, (hg.hasEdge_ne he).symm, hlt⟩
          rw [Graph.hasEdge_comm]; exact he
        intro u hu v hv
        exact (hsym _ _ (hz u hu)).trans (hz v hv)
  · intro h
    have key : ∃ r : Nat → Nat, ∀ v ∈ nonMinVerts g plant, ∃ u ∈ g.verts, g.hasEdge v u = true ∧ r u < r v := by
      by_cases hV : g.verts = []
      · exact ⟨fun _ => 0, by intro v hv; unfold nonMinVerts at hv; rw [hV] at hv; cases plant <;> simp at hv⟩
      · obtain ⟨rfl, hcon⟩ := h.resolve_left hV
        obtain ⟨r, hr⟩ := exists_rank (fun a b => g.hasEdge a b = true) (g.verts.getLast hV)
        refine ⟨r, fun v hv => ?_⟩
        have hv : v ∈ g.verts.dropLast := hv
        have hvm : v ∈ g.verts := List.mem_of_mem_dropLast hv
        have hne : v ≠ g.verts.getLast hV := by
          intro e
          have hn := hg.verts_nodup
          rw [← List.dropLast_append_getLast hV, List.nodup_append] at hn
          exact hn.2.2 v hv _ (by simp) e
        obtain ⟨u, hu, hlt⟩ := hr v (hcon _ (List.getLast_mem hV) v hvm) hne
        exact ⟨u, (hg.hasEdge_mem hu).1, by rw [Graph.hasEdge_comm]; exact hu, hlt⟩
    obtain ⟨r, hr⟩ := key
    obtain ⟨α, ha⟩ := exists_fmt2 "x".toList (fun i j => r i < r j ∨ (r i = r j ∧ i < j))
    have ha : ∀ i j, α (xn i j) = true ↔ (r i < r j ∨ (r i = r j ∧ i < j)) := ha
    obtain ⟨h1, h2⟩ := ord_backward hg total smart knuth r α ha
    refine ⟨α, ⟨fun v hv => ?_, h1⟩, h2⟩
    obtain ⟨u, hu, he, hlt⟩ := hr v hv
    refine ⟨u, hu, he, ?_⟩
    unfold ordLt
    split
    · split
      · exact (ha _ _).2 (.inl hlt)
      · have : ¬ α (xn v u) = true := by rw [ha]; omega
        simpa using this
    · exact (ha _ _).2 (.inl hlt)

theorem complete_wf (n : Nat) : (Graph.complete n).Wf where
  sorted := List.pairwise_lt_range
  ends := by
    rintro ⟨u, v⟩ h
    have := (mem_pairs_sorted List.pairwise_lt_range).1 h
    exact ⟨this.1, this.2.1, Nat.ne_of_lt this.2.2⟩
  nodup := by
    have : ∀ l : List Nat, l.Pairwise (· < ·) → (pairs l).Nodup := by
      intro l
      induction l with
      | nil => intro _; exact List.nodup_nil
      | cons a l ih =>
        intro h
        rw [List.pairwise_cons] at h
        simp only [pairs]
        rw [List.nodup_append]
        refine ⟨List.Nodup.map (fun x y e => by simpa using e) (h.2.imp Nat.ne_of_lt), ih h.2, ?_⟩
        rintro ⟨x, y⟩ h1 ⟨x', y'⟩ h2 e
        obtain ⟨w, hw, e1⟩ := List.mem_map.1 h1
        have := (mem_pairs_sorted h.2).1 h2
        have h3 := h.1 _ this.1
        simp only [Prod.mk.injEq] at e e1
        omega
    exact this _ List.pairwise_lt_range
  once := by
    rintro ⟨u, v⟩ h h'
    have h1 := (mem_pairs_sorted List.pairwise_lt_range).1 h
    have h2 := (mem_pairs_sorted List.pairwise_lt_range).1 h'
    simp only at h2
    omega

theorem complete_hasEdge {n u v : Nat} : (Graph.complete n).hasEdge u v = true ↔ u < n ∧ v < n ∧ u ≠ v := by
  rw [Graph.hasEdge_iff]
  simp only [Graph.complete, mem_pairs_sorted List.pairwise_lt_range, List.mem_range]
  omega

/-- **C51.** The ordering principle on `size` elements is unsatisfiable, unless there are none or the last may be minimal. -/
theorem C51_ordering (size : Nat) (total smart plant : Bool) (knuth : Int) :
    ∃ F, ordering size total smart plant knuth = pure F ∧ (Spec.Satisfiable F.clauses ↔ size = 0 ∨ plant = true) := by
  obtain ⟨F, hF, h⟩ := C51_graph_ordering (Graph.complete size) (complete_wf size) total smart plant knuth
  refine ⟨F, hF, h.trans ?_⟩
  have hc : (Graph.complete size).Connected := by
    intro u hu v hv
    by_cases e : u = v
    · rw [e]
    · refine .single (complete_hasEdge.2 ⟨?_, ?_, e⟩)
      · simpa [Graph.complete] using hu
      · simpa [Graph.complete] using hv
  have e : (Graph.complete size).verts = [] ↔ size = 0 := by simp [Graph.complete]
  rw [e]; simp [hc]

/-- Knuth's third variant on five elements. -/
example : ∃ F, ordering 5 false false false 3 = pure F ∧ ¬ Spec.Satisfiable F.clauses := by
  obtain ⟨F, h1, h2⟩ := C51_ordering 5 false false false 3
  exact ⟨F, h1, by rw [h2]; simp⟩

end NDP.Cnfgen
