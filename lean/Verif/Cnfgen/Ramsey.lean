import Verif.Cnfgen.Graph
import Mathlib.Data.Finset.Sort
import Mathlib.Data.Nat.Prime.Basic
import Mathlib.Tactic.Linarith
import Mathlib.Tactic.IntervalCases
/-
  C59: `families/ramsey.py`.
-/
namespace NDP.Cnfgen
open NDP

/-- `families/ramsey.py` 70-112 (`RamseyLowerBoundFormula`).  Simplified: sizes are not negative (`combinations` raises then). -/
def ramsey (s k n : Nat) : M (CNF Str) :=
  CNF.ofPartsStrict ((pairs (oneTo n)).map fun e => fmt2 "e".toList e.1 e.2)
    ((combinations (oneTo n) s).map (fun vs => (pairs vs).map fun e => (true, fmt2 "e".toList e.1 e.2)) ++
     (combinations (oneTo n) k).map (fun vs => (pairs vs).map fun e => (false, fmt2 "e".toList e.1 e.2)))

/-- `families/ramsey.py` 58-64: the clauses.  `isqrt n` is `int(sqrt(n))`, a floating point computation: it is a parameter. -/
def pythClauses (isqrt : Nat → Nat) (n : Nat) : List (List (Lit Str)) :=
  (pairs (oneTo n)).flatMap fun p =>
    let z := isqrt (p.1 ^ 2 + p.2 ^ 2)
    if z ≤ n ∧ z ^ 2 = p.1 ^ 2 + p.2 ^ 2 then
      [[(true, fmt1 "x".toList p.1), (true, fmt1 "x".toList p.2), (true, fmt1 "x".toList z)],
       [(false, fmt1 "x".toList p.1), (false, fmt1 "x".toList p.2), (false, fmt1 "x".toList z)]]
    else []

/-- `families/ramsey.py` 16-66 (`PythagoreanTriples`). -/
def pythagorean (isqrt : Nat → Nat) (n : Nat) : M (CNF Str) :=
  CNF.ofPartsStrict ((oneTo n).map (fmt1 "x".toList))
    (pythClauses isqrt n)

/-! ### Sets of vertices -/

/-- A set of `k` of the numbers `1..n`, as a list in order. -/
theorem comb_iff_finset (n k : Nat) (P : Nat → Nat → Prop) :
    (∀ vs ∈ combinations (oneTo n) k, ∃ e ∈ pairs vs, P e.1 e.2) ↔
    ∀ S : Finset Nat, (∀ v ∈ S, 1 ≤ v ∧ v ≤ n) → S.card = k → ∃ u ∈ S, ∃ v ∈ S, u < v ∧ P u v := by
  constructor
  · intro h S hS hk
    have hs : (S.sort (· ≤ ·)).Pairwise (· < ·) := S.sortedLT_sort.pairwise
    have hsub : (S.sort (· ≤ ·)).Sublist (oneTo n) := by
      apply List.sublist_of_subperm_of_pairwise (r := (· < ·)) _ hs (oneTo_sorted n)
      apply List.subperm_of_subset (Finset.sort_nodup _ _)
      intro v hv
      rw [Finset.mem_sort] at hv
      exact mem_oneTo.2 (hS v hv)
    obtain ⟨⟨u, v⟩, he, hP⟩ := h _ (mem_combinations.2 ⟨hsub, by simpa using hk⟩)
    have := (mem_pairs_sorted hs).1 he
    exact ⟨u, by simpa using this.1, v, by simpa using this.2.1, this.2.2, hP⟩
  · intro h vs hvs
    obtain ⟨h1, h2⟩ := mem_combinations.1 hvs
    have hs : vs.Pairwise (· < ·) := (oneTo_sorted n).sublist h1
    have hn : vs.Nodup := (oneTo_nodup n).sublist h1
    obtain ⟨u, hu, v, hv, hlt, hP⟩ := h vs.toFinset (by
      intro v hv; exact mem_oneTo.1 (h1.subset (by simpa using hv))) (by rw [List.toFinset_card_of_nodup hn, h2])
    exact ⟨(u, v), (mem_pairs_sorted hs).2 ⟨by simpa using hu, by simpa using hv, hlt⟩, hP⟩

theorem pairs_nodup {l : List Nat} (h : l.Pairwise (· < ·)) : (pairs l).Nodup := by
  induction l with
  | nil => simp [pairs]
  | cons x l ih =>
    rw [List.pairwise_cons] at h
    rw [pairs, List.nodup_append]
    refine ⟨?_, ih h.2, ?_⟩
    · exact List.Nodup.map (fun a b e => by simpa using e) (h.2.imp fun h => Nat.ne_of_lt h)
    · rintro a ha b hb rfl
      obtain ⟨y, hy, rfl⟩ := List.mem_map.1 ha
      have := ((mem_pairs_sorted h.2).1 hb).1
      have := h.1 x this
      omega

theorem ramsey_true (n : Nat) : ∀ (α : Str → Bool) (b : Bool) (m : Nat),
      AllTrue α ((combinations (oneTo n) m).map (fun vs => (pairs vs).map fun e => (b, fmt2 "e".toList e.1 e.2))) ↔
      ∀ S : Finset Nat, (∀ v ∈ S, 1 ≤ v ∧ v ≤ n) → S.card = m → ∃ u ∈ S, ∃ v ∈ S, u < v ∧ α (fmt2 "e".toList u v) = b := by
    intro α b m
    rw [← comb_iff_finset n m fun u v => α (fmt2 "e".toList u v) = b, allTrue_map]
    refine forall₂_congr fun vs _ => ?_
    simp only [ClauseTrue, List.mem_map]
    constructor
    · rintro ⟨_, ⟨e, he, rfl⟩, h⟩; exact ⟨e, he, h⟩
    · rintro ⟨e, he, h⟩; exact ⟨_, ⟨e, he, rfl⟩, h⟩

/-- **C59.** The Ramsey formula is satisfiable exactly when some graph on the vertices `1..n` has neither `s` pairwise unconnected nor `k`
pairwise connected vertices. -/
theorem C59_ramsey (s k n : Nat) :
    ∃ F, ramsey s k n = pure F ∧
      (Spec.Satisfiable F.clauses ↔ ∃ E : Nat → Nat → Prop, (∀ u v, E u v → E v u) ∧
        (∀ S : Finset Nat, (∀ v ∈ S, 1 ≤ v ∧ v ≤ n) → S.card = s → ∃ u ∈ S, ∃ v ∈ S, u ≠ v ∧ E u v) ∧
        (∀ S : Finset Nat, (∀ v ∈ S, 1 ≤ v ∧ v ≤ n) → S.card = k → ∃ u ∈ S, ∃ v ∈ S, u ≠ v ∧ ¬ E u v)) := by
  have hw : ∀ (m : Nat) (b : Bool), ∀ c ∈ (combinations (oneTo n) m).map (fun vs => (pairs vs).map fun e => (b, fmt2 "e".toList e.1 e.2)),
      (c.map Prod.snd).Nodup ∧ ∀ l ∈ c, l.2 ∈ (pairs (oneTo n)).map fun e => fmt2 "e".toList e.1 e.2 := by
    intro m b c hc
    obtain ⟨vs, hvs, rfl⟩ := List.mem_map.1 hc
    obtain ⟨h1, _⟩ := mem_combinations.1 hvs
    have hs : vs.Pairwise (· < ·) := (oneTo_sorted n).sublist h1
    constructor
    · rw [List.map_map]
      exact List.Nodup.map (fun a b e => fmt2_injective _ e) (pairs_nodup hs)
    · intro l hl
      obtain ⟨e, he, rfl⟩ := List.mem_map.1 hl
      refine List.mem_map.2 ⟨e, ?_, rfl⟩
      have := (mem_pairs_sorted hs).1 he
      exact (mem_pairs_sorted (oneTo_sorted n)).2 ⟨h1.subset this.1, h1.subset this.2.1, this.2.2⟩
  obtain ⟨F, hF, hc⟩ := CNF.ofPartsStrict_ok (vs := (pairs (oneTo n)).map fun e => fmt2 "e".toList e.1 e.2)
    (cs := (combinations (oneTo n) s).map (fun vs => (pairs vs).map fun e => (true, fmt2 "e".toList e.1 e.2)) ++
      (combinations (oneTo n) k).map (fun vs => (pairs vs).map fun e => (false, fmt2 "e".toList e.1 e.2)))
    (by intro c hc; rcases List.mem_append.1 hc with h | h
        · exact (hw _ _ c h).1
        · exact (hw _ _ c h).1)
    (by intro c hc; rcases List.mem_append.1 hc with h | h
        · exact (hw _ _ c h).2
        · exact (hw _ _ c h).2)
  refine ⟨F, hF, ?_⟩
  rw [hc.sat]
  have key := ramsey_true n
  constructor
  · rintro ⟨α, ha⟩
    rw [allTrue_append, key, key] at ha
    refine ⟨fun u v => α (fmt2 "e".toList (min u v) (max u v)) = true, fun u v h => by show α _ = true; rwa [min_comm, max_comm], ?_, ?_⟩
    · intro S hS hk
      obtain ⟨u, hu, v, hv, hlt, he⟩ := ha.1 S hS hk
      exact ⟨u, hu, v, hv, by omega, by show α _ = true; rwa [min_eq_left hlt.le, max_eq_right hlt.le]⟩
    · intro S hS hk
      obtain ⟨u, hu, v, hv, hlt, he⟩ := ha.2 S hS hk
      exact ⟨u, hu, v, hv, by omega, by show ¬ α _ = true; rw [min_eq_left hlt.le, max_eq_right hlt.le, he]; simp⟩
  · rintro ⟨E, hsym, h1, h2⟩
    obtain ⟨α, ha⟩ := exists_fmt2 "e".toList E
    refine ⟨α, ?_⟩
    rw [allTrue_append, key, key]
    constructor
    · intro S hS hk
      obtain ⟨u, hu, v, hv, hne, he⟩ := h1 S hS hk
      rcases Nat.lt_or_gt_of_ne hne with h | h
      · exact ⟨u, hu, v, hv, h, (ha _ _).2 he⟩
      · exact ⟨v, hv, u, hu, h, (ha _ _).2 (hsym _ _ he)⟩
    · intro S hS hk
      obtain ⟨u, hu, v, hv, hne, he⟩ := h2 S hS hk
      have hf : ∀ a b, ¬ E a b → α (fmt2 "e".toList a b) = false := by
        intro a b hab
        cases h : α (fmt2 "e".toList a b)
        · rfl
        · exact absurd ((ha _ _).1 h) hab
      rcases Nat.lt_or_gt_of_ne hne with h | h
      · exact ⟨u, hu, v, hv, h, hf _ _ he⟩
      · exact ⟨v, hv, u, hu, h, hf _ _ fun e => he (hsym _ _ e)⟩

/-! ### Pythagorean triples -/

theorem nodup3 {A : Type} {a b c : A} (h1 : a ≠ b) (h2 : a ≠ c) (h3 : b ≠ c) : [a, b, c].Nodup := by simp [h1, h2, h3]

theorem two_sq_ne {x z : Nat} (h : z ^ 2 = 2 * x ^ 2) : x = 0 := by
  induction x using Nat.strongRecOn generalizing z with
  | ind x ih =>
    by_contra hx
    obtain ⟨w, rfl⟩ : ∃ w, z = 2 * w := by
      have : 2 ∣ z ^ 2 := ⟨_, h⟩
      exact Nat.prime_two.dvd_of_dvd_pow this
    have h2 : x ^ 2 = 2 * w ^ 2 := by nlinarith
    have hlt : w < x := by nlinarith [Nat.pos_of_ne_zero hx]
    have := ih w hlt h2
    subst this
    simp at h2
    exact hx h2

theorem pyth_true (isqrt : Nat → Nat) (n : Nat) (hs : ∀ z ≤ n, isqrt (z ^ 2) = z) : ∀ α : Str → Bool, AllTrue α (pythClauses isqrt n) ↔ ∀ x y z, 1 ≤ x → 1 ≤ y → z ≤ n → x ^ 2 + y ^ 2 = z ^ 2 →
        ¬ (α (fmt1 "x".toList x) = α (fmt1 "x".toList y) ∧ α (fmt1 "x".toList y) = α (fmt1 "x".toList z)) := by
    intro α
    rw [pythClauses, allTrue_flatMap]
    constructor
    · intro h
      have main : ∀ x y z, 1 ≤ x → x < y → z ≤ n → x ^ 2 + y ^ 2 = z ^ 2 →
          ¬ (α (fmt1 "x".toList x) = α (fmt1 "x".toList y) ∧ α (fmt1 "x".toList y) = α (fmt1 "x".toList z)) := by
        intro x y z hx hlt hzn he
        have hyz : y ≤ z := by
          by_contra hc
          have : z ^ 2 < y ^ 2 := Nat.pow_lt_pow_left (by omega) (by omega)
          omega
        have := h (x, y) ((mem_pairs_sorted (oneTo_sorted n)).2 ⟨mem_oneTo.2 ⟨hx, by omega⟩, mem_oneTo.2 ⟨by omega, by omega⟩, hlt⟩)
        simp only at this
        rw [he, hs z hzn, if_pos ⟨hzn, rfl⟩] at this
        simp only [allTrue_cons, allTrue_nil, clauseTrue_cons, clauseTrue_nil, or_false, and_true] at this
        rintro ⟨e1, e2⟩
        rw [e1, e2] at this
        cases hc : α (fmt1 "x".toList z) <;> simp [hc] at this
      intro x y z hx hy hzn he hcol
      rcases Nat.lt_trichotomy x y with hlt | rfl | hlt
      · exact main x y z hx hlt hzn he hcol
      · have := two_sq_ne (x := x) (z := z) (by omega); omega
      · exact main y x z hy hlt hzn (by omega) ⟨hcol.1.symm, hcol.1.trans hcol.2⟩
    · rintro h ⟨x, y⟩ hp
      obtain ⟨hx, hy, hlt⟩ := (mem_pairs_sorted (oneTo_sorted n)).1 hp
      simp only
      split
      · next hc =>
        have := h x y _ (mem_oneTo.1 hx).1 (mem_oneTo.1 hy).1 hc.1 hc.2.symm
        simp only [allTrue_cons, allTrue_nil, clauseTrue_cons, clauseTrue_nil, or_false, and_true]
        cases h1 : α (fmt1 "x".toList x) <;> cases h2 : α (fmt1 "x".toList y) <;>
          cases h3 : α (fmt1 "x".toList (isqrt (x ^ 2 + y ^ 2))) <;> simp_all
      · exact allTrue_nil α

/-- **C59.** The Pythagorean triples formula is satisfiable exactly when the numbers `1..n` can be colored with two colors so that no
`x² + y² = z²` has one color; provided the floating point square root is right on squares up to `n²` (as it is up to `2^53`). -/
theorem C59_pythagorean (isqrt : Nat → Nat) (n : Nat) (hs : ∀ z ≤ n, isqrt (z ^ 2) = z) :
    ∃ F, pythagorean isqrt n = pure F ∧
      (Spec.Satisfiable F.clauses ↔ ∃ color : Nat → Bool, ∀ x y z, 1 ≤ x → 1 ≤ y → z ≤ n → x ^ 2 + y ^ 2 = z ^ 2 →
        ¬ (color x = color y ∧ color y = color z)) := by
  have hz : ∀ x y, x ∈ oneTo n → y ∈ oneTo n → x < y → isqrt (x ^ 2 + y ^ 2) ≤ n → isqrt (x ^ 2 + y ^ 2) ^ 2 = x ^ 2 + y ^ 2 →
      y < isqrt (x ^ 2 + y ^ 2) ∧ isqrt (x ^ 2 + y ^ 2) ∈ oneTo n := by
    intro x y hx hy hlt h1 h2
    rw [mem_oneTo] at *
    have : y < isqrt (x ^ 2 + y ^ 2) := by
      by_contra hc
      have : isqrt (x ^ 2 + y ^ 2) ^ 2 ≤ y ^ 2 := Nat.pow_le_pow_left (by omega) 2
      have : 0 < x ^ 2 := Nat.pow_pos (by omega)
      omega
    exact ⟨this, by omega⟩
  unfold pythagorean
  obtain ⟨F, hF, hc⟩ := CNF.ofPartsStrict_ok (vs := (oneTo n).map (fmt1 "x".toList))
    (cs := pythClauses isqrt n) (by
    intro c hc
    obtain ⟨⟨x, y⟩, hp, hc⟩ := List.mem_flatMap.1 hc
    obtain ⟨hx, hy, hlt⟩ := (mem_pairs_sorted (oneTo_sorted n)).1 hp
    simp only at hc
    split at hc
    · next h =>
      obtain ⟨h1, h2⟩ := hz x y hx hy hlt h.1 h.2
      have a1 : fmt1 "x".toList x ≠ fmt1 "x".toList y := fun e => by have := fmt1_inj e; omega
      have a2 : fmt1 "x".toList x ≠ fmt1 "x".toList (isqrt (x ^ 2 + y ^ 2)) := fun e => by have := fmt1_inj e; omega
      have a3 : fmt1 "x".toList y ≠ fmt1 "x".toList (isqrt (x ^ 2 + y ^ 2)) := fun e => by have := fmt1_inj e; omega
      simp only [List.mem_cons, List.not_mem_nil, or_false] at hc
      rcases hc with rfl | rfl <;> exact nodup3 a1 a2 a3
    · simp at hc) (by
    intro c hc
    obtain ⟨⟨x, y⟩, hp, hc⟩ := List.mem_flatMap.1 hc
    obtain ⟨hx, hy, hlt⟩ := (mem_pairs_sorted (oneTo_sorted n)).1 hp
    simp only at hc
    split at hc
    · next h =>
      obtain ⟨_, h2⟩ := hz x y hx hy hlt h.1 h.2
      simp only [List.mem_cons, List.not_mem_nil, or_false] at hc
      rcases hc with rfl | rfl <;>
        simp only [List.mem_cons, List.not_mem_nil, or_false, forall_eq_or_imp, forall_eq] <;>
        exact ⟨List.mem_map_of_mem hx, List.mem_map_of_mem hy, List.mem_map_of_mem h2⟩
    · simp at hc)
  refine ⟨F, hF, ?_⟩
  rw [hc.sat]
  have key := pyth_true isqrt n hs
  constructor
  · rintro ⟨α, ha⟩
    exact ⟨fun i => α (fmt1 "x".toList i), (key α).1 ha⟩
  · rintro ⟨color, hc⟩
    obtain ⟨α, ha⟩ := exists_fmt1 "x".toList fun i => color i = true
    have e : ∀ i, α (fmt1 "x".toList i) = color i := fun i => by
      rw [Bool.eq_iff_iff]; exact ha i
    exact ⟨α, (key α).2 (by simpa only [e] using hc)⟩

/-- With `Nat.sqrt` for the square root, up to 5: satisfiable (color 5 apart). -/
example : ∃ F, pythagorean Nat.sqrt 5 = pure F ∧ Spec.Satisfiable F.clauses := by
  obtain ⟨F, h1, h2⟩ := C59_pythagorean Nat.sqrt 5 fun z _ => Nat.sqrt_eq' z
  refine ⟨F, h1, h2.2 ⟨fun i => decide (i = 5), ?_⟩⟩
  · intro x y z hx hy hz he
    have h1 : x < z := by nlinarith
    have h2 : y < z := by nlinarith
    have : z = 5 := by
      interval_cases z <;> interval_cases x <;> interval_cases y <;> omega
    simp; omega

/-- r(3,3) > 2, and not r(2,2) > 2. -/
example : (∃ F, ramsey 3 3 2 = pure F ∧ Spec.Satisfiable F.clauses) ∧ ∃ F, ramsey 2 2 2 = pure F ∧ ¬ Spec.Satisfiable F.clauses := by
  constructor
  · obtain ⟨F, h1, h2⟩ := C59_ramsey 3 3 2
    have : ∀ S : Finset Nat, (∀ v ∈ S, 1 ≤ v ∧ v ≤ 2) → S.card = 3 → False := by
      intro S hS hk
      have := Finset.card_le_card (t := {1, 2}) (s := S) (by intro v hv; have := hS v hv; simp; omega)
      rw [hk] at this; simp at this
    exact ⟨F, h1, h2.2 ⟨fun _ _ => True, by simp, fun S hS hk => (this S hS hk).elim, fun S hS hk => (this S hS hk).elim⟩⟩
  · obtain ⟨F, h1, h2⟩ := C59_ramsey 2 2 2
    refine ⟨F, h1, fun h => ?_⟩
    obtain ⟨E, hE, e1, e2⟩ := h2.1 h
    obtain ⟨u, hu, v, hv, hne, he⟩ := e1 {1, 2} (by simp) (by simp)
    obtain ⟨u', hu', v', hv', hne', he'⟩ := e2 {1, 2} (by simp) (by simp)
    simp at hu hv hu' hv'
    rcases hu with rfl | rfl <;> rcases hv with rfl | rfl <;> rcases hu' with rfl | rfl <;> rcases hv' with rfl | rfl <;> simp_all

end NDP.Cnfgen
