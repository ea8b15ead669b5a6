import Verif.Model.Clause
import Verif.Lib.Sort
/- Facts about clause construction and comparison. -/
namespace NDP

/-! ### literal digits: the order used by the clause comparison -/

/-- Position of a literal in the comparison order: by variable, positive before negative. -/
def digit (l : Int) : Nat := 2 * l.natAbs + (if l < 0 then 1 else 0)

theorem digit_inj {a b : Int} (h : digit a = digit b) : a = b := by
  unfold digit at h; split at h <;> split at h <;> omega

theorem clauseLt_iff (a b : List Int) : clauseLt a b = true ↔ a.map digit < b.map digit := by
  induction a generalizing b with
  | nil => cases b <;> simp [clauseLt]
  | cons x xs ih =>
    cases b with
    | nil => simp [clauseLt]
    | cons y ys =>
      simp only [clauseLt, List.map_cons, List.cons_lt_cons_iff]
      by_cases h : x = y
      · subst h; simp [ih]
      · have hd : digit x ≠ digit y := fun e => h (digit_inj e)
        simp only [if_neg h, hd, false_and, or_false]
        by_cases h2 : x.natAbs = y.natAbs
        · simp only [h2, if_true, decide_eq_true_eq]
          unfold digit
          split <;> split <;> omega
        · simp only [if_neg h2, decide_eq_true_eq]
          unfold digit
          split <;> split <;> omega

theorem clauseLt_irrefl (a : List Int) : clauseLt a a = false := by
  rw [Bool.eq_false_iff]; intro h; rw [clauseLt_iff] at h; exact List.lt_irrefl _ h

theorem clauseLt_trans {a b c : List Int} (h1 : clauseLt a b = true) (h2 : clauseLt b c = true) :
    clauseLt a c = true := by
  rw [clauseLt_iff] at *; exact List.lt_trans h1 h2

theorem map_digit_inj {a b : List Int} (h : a.map digit = b.map digit) : a = b := by
  induction a generalizing b with
  | nil => cases b <;> simp_all
  | cons x xs ih =>
    cases b with
    | nil => simp at h
    | cons y ys =>
      simp only [List.map_cons, List.cons.injEq] at h
      rw [digit_inj h.1, ih h.2]

theorem clauseLt_trichotomy (a b : List Int) : clauseLt a b = true ∨ a = b ∨ clauseLt b a = true := by
  simp only [clauseLt_iff]
  by_cases h1 : a.map digit < b.map digit
  · left; exact h1
  · by_cases h2 : b.map digit < a.map digit
    · right; right; exact h2
    · right; left
      exact map_digit_inj (List.le_antisymm h2 h1)

theorem clauseLt_asymm {a b : List Int} (h : clauseLt a b = true) : clauseLt b a = false := by
  rw [Bool.eq_false_iff]; intro h2
  have := clauseLt_trans h h2
  rw [clauseLt_irrefl] at this; exact absurd this (by simp)

theorem clauseLt_negtrans {a b c : List Int} (h1 : clauseLt b a = false) (h2 : clauseLt c b = false) :
    clauseLt c a = false := by
  rw [Bool.eq_false_iff] at *
  intro h
  rcases clauseLt_trichotomy b a with hb | hb | hb
  · exact h1 hb
  · subst hb; exact h2 h
  · exact h2 (clauseLt_trans h hb)

/-! ### sorting literals by absolute value -/

/-- Strictly ascending absolute values. -/
def Asc (c : List Int) : Prop := c.Pairwise fun a b => a.natAbs < b.natAbs

theorem sortAbs_perm (c : List Int) : (sortAbs c).Perm c := isort_perm _ c
@[simp] theorem mem_sortAbs (c : List Int) (l : Int) : l ∈ sortAbs c ↔ l ∈ c := mem_isort _ c l
@[simp] theorem length_sortAbs (c : List Int) : (sortAbs c).length = c.length := length_isort _ c

theorem sortAbs_sorted (c : List Int) : (sortAbs c).Pairwise fun a b => a.natAbs ≤ b.natAbs := by
  have : SortedBy (fun (a b : Int) => decide (a.natAbs < b.natAbs)) (sortAbs c) := by
    apply isort_sorted
    · intro a b h; simp at *; omega
    · intro a b c h1 h2; simp at *; omega
  refine List.Pairwise.imp ?_ this
  intro a b h; simp at h; exact h

theorem Asc.nodup {c : List Int} (h : Asc c) : (c.map Int.natAbs).Nodup := by
  unfold List.Nodup
  rw [List.pairwise_map]
  exact h.imp (fun h => by omega)

theorem asc_sortAbs {c : List Int} (h : (c.map Int.natAbs).Nodup) : Asc (sortAbs c) := by
  have h1 := sortAbs_sorted c
  have h2 : ((sortAbs c).map Int.natAbs).Nodup := ((sortAbs_perm c).map _).nodup_iff.2 h
  unfold List.Nodup at h2
  rw [List.pairwise_map] at h2
  exact (h1.and h2).imp (fun h => by omega)

theorem sortAbs_of_asc {c : List Int} (h : Asc c) : sortAbs c = c := by
  apply isort_of_sorted
  refine List.Pairwise.imp ?_ h
  intro a b hab; simp; omega

/-- Two strictly ascending lists with the same members are equal. -/
theorem asc_ext {a b : List Int} (ha : Asc a) (hb : Asc b) (h : ∀ l, l ∈ a ↔ l ∈ b) : a = b := by
  induction a generalizing b with
  | nil =>
    cases b with
    | nil => rfl
    | cons y ys => simpa using (h y).2 (by simp)
  | cons x xs ih =>
    cases b with
    | nil => simpa using (h x).1 (by simp)
    | cons y ys =>
      unfold Asc at ha hb ih
      rw [List.pairwise_cons] at ha hb
      have hxy : x = y := by
        have hx := (h x).1 (by simp)
        have hy := (h y).2 (by simp)
        simp only [List.mem_cons] at hx hy
        rcases hx with hx | hx
        · exact hx
        · rcases hy with hy | hy
          · exact hy.symm
          · have := ha.1 y hy; have := hb.1 x hx; omega
      subst hxy
      congr 1
      apply ih ha.2 hb.2
      intro l
      have hl := h l
      simp only [List.mem_cons] at hl
      constructor
      · intro hm
        rcases hl.1 (Or.inr hm) with e | e
        · subst e; have := ha.1 l hm; omega
        · exact e
      · intro hm
        rcases hl.2 (Or.inr hm) with e | e
        · subst e; have := hb.1 l hm; omega
        · exact e

/-! ### construction -/

theorem headPairEq_asc {c : List Int} (h : Asc c) : headPairEq c = false := by
  match c with
  | [] => rfl
  | [_] => rfl
  | a :: b :: _ =>
    unfold Asc at h
    rw [List.pairwise_cons] at h
    have := h.1 b (by simp)
    simp [headPairEq]; omega

theorem tailPairEq_asc {c : List Int} (h : Asc c) : tailPairEq c = false := by
  match c with
  | [] => rfl
  | [_] => rfl
  | [_, _] => rfl
  | [_, b, c] =>
    unfold Asc at h
    rw [List.pairwise_cons, List.pairwise_cons] at h
    have := h.2.1 c (by simp)
    simp [tailPairEq]; omega
  | _ :: _ :: _ :: _ :: _ => rfl

/-- Building a clause from a strictly ascending list keeps the list. -/
theorem Clause.ofList_asc {c : List Int} (h : Asc c) : Clause.ofList c = { raw := c } := by
  simp [Clause.ofList, sortAbs_of_asc h, headPairEq_asc h, tailPairEq_asc h]

/-- Building a clause from distinct variables sorts it. -/
theorem Clause.ofList_nodup {c : List Int} (h : (c.map Int.natAbs).Nodup) :
    Clause.ofList c = { raw := sortAbs c } := by
  have ha := asc_sortAbs h
  simp [Clause.ofList, headPairEq_asc ha, tailPairEq_asc ha]

/-- What construction does to at most three literals: a tautology becomes the value `true`, anything else
a strictly ascending list with the same members. -/
theorem Clause.ofList_le_three (c : List Int) (hn : c.Nodup) (h3 : c.length ≤ 3) :
    ((∃ l ∈ c, -l ∈ c ∧ l ≠ 0) → Clause.ofList c = { raw := [], value := some true }) ∧
    ((¬ ∃ l ∈ c, -l ∈ c ∧ l ≠ 0) → (c.map Int.natAbs).Nodup) := by
  have hs := sortAbs_sorted c
  have hm := mem_sortAbs c
  have hl := length_sortAbs c
  have hnd : (sortAbs c).Nodup := (sortAbs_perm c).nodup_iff.2 hn
  constructor
  · rintro ⟨l, h1, h2, h0⟩
    rw [← hm] at h1 h2
    rw [← hl] at h3
    unfold Clause.ofList
    generalize sortAbs c = r at *
    match r with
    | [] => simp at h1
    | [a] => simp at h1 h2; omega
    | [a, b] =>
      simp at h1 h2 hs
      have : a.natAbs = b.natAbs := by omega
      simp [headPairEq, tailPairEq, this]
    | [a, b, d] =>
      simp at h1 h2 hs
      by_cases e : a.natAbs = b.natAbs
      · simp [headPairEq, tailPairEq, e]
      · have : b.natAbs = d.natAbs := by omega
        have e' : ¬ a.natAbs = d.natAbs := by omega
        simp [headPairEq, tailPairEq, e, e', this]
    | _ :: _ :: _ :: _ :: _ => simp at h3
  · intro h
    unfold List.Nodup
    rw [List.pairwise_map]
    refine List.Pairwise.imp_of_mem ?_ hn
    intro a b ha hb hne e
    exact h ⟨a, ha, by have : b = -a := by omega
                       rwa [← this], by omega⟩

end NDP
