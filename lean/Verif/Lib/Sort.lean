import Verif.Py
/- Lemmas about the stable insertion sort and `dedup`. -/
namespace NDP
variable {α : Type}

theorem insertBy_perm (lt : α → α → Bool) (x : α) (l : List α) : (insertBy lt x l).Perm (x :: l) := by
  induction l with
  | nil => simp [insertBy]
  | cons y ys ih =>
    simp only [insertBy]
    split
    · exact (List.Perm.cons y ih).trans (List.Perm.swap x y ys)
    · exact List.Perm.refl _

theorem isort_perm (lt : α → α → Bool) (l : List α) : (isort lt l).Perm l := by
  induction l with
  | nil => simp [isort]
  | cons x xs ih => exact (insertBy_perm lt x _).trans (List.Perm.cons x ih)

@[simp] theorem mem_isort (lt : α → α → Bool) (l : List α) (a : α) : a ∈ isort lt l ↔ a ∈ l :=
  (isort_perm lt l).mem_iff

@[simp] theorem length_isort (lt : α → α → Bool) (l : List α) : (isort lt l).length = l.length :=
  (isort_perm lt l).length_eq

/-- Sorted with respect to `lt`: no later element is smaller than an earlier one. -/
def SortedBy (lt : α → α → Bool) (l : List α) : Prop := l.Pairwise fun a b => lt b a = false

theorem insertBy_sorted {lt : α → α → Bool} (asymm : ∀ a b, lt a b = true → lt b a = false)
    (trans : ∀ a b c, lt b a = false → lt c b = false → lt c a = false)
    (x : α) (l : List α) (h : SortedBy lt l) : SortedBy lt (insertBy lt x l) := by
  induction l with
  | nil => simp [insertBy, SortedBy]
  | cons y ys ih =>
    simp only [insertBy]
    unfold SortedBy at h ih ⊢
    rw [List.pairwise_cons] at h
    split
    · rename_i hlt
      rw [List.pairwise_cons]
      refine ⟨?_, ih h.2⟩
      intro b hb
      rw [(insertBy_perm lt x ys).mem_iff, List.mem_cons] at hb
      rcases hb with rfl | hb
      · exact asymm _ _ hlt
      · exact h.1 b hb
    · rename_i hlt
      have hlt : lt y x = false := by simpa using hlt
      rw [List.pairwise_cons]
      refine ⟨?_, by rw [List.pairwise_cons]; exact h⟩
      intro b hb
      rw [List.mem_cons] at hb
      rcases hb with rfl | hb
      · exact hlt
      · exact trans _ _ _ hlt (h.1 b hb)

theorem isort_sorted {lt : α → α → Bool} (asymm : ∀ a b, lt a b = true → lt b a = false)
    (trans : ∀ a b c, lt b a = false → lt c b = false → lt c a = false) (l : List α) :
    SortedBy lt (isort lt l) := by
  induction l with
  | nil => simp [isort, SortedBy]
  | cons x xs ih => exact insertBy_sorted asymm trans x _ ih

theorem isort_of_sorted {lt : α → α → Bool} (l : List α) (h : SortedBy lt l) : isort lt l = l := by
  induction l with
  | nil => rfl
  | cons x xs ih =>
    unfold SortedBy at h ih
    rw [List.pairwise_cons] at h
    rw [isort, ih h.2]
    cases xs with
    | nil => rfl
    | cons y ys => simp [insertBy, h.1 y (by simp)]

@[simp] theorem isort_nil (lt : α → α → Bool) : isort lt ([] : List α) = [] := rfl

/-! stability: elements with the same key keep their order -/
theorem insertBy_filter {lt : α → α → Bool} (p : α → Bool) (x : α) (l : List α)
    (h : ∀ y ∈ l, p x = true → p y = true → lt y x = false) :
    (insertBy lt x l).filter p = (x :: l).filter p := by
  induction l with
  | nil => rfl
  | cons y ys ih =>
    simp only [insertBy]
    split
    · rename_i hlt
      have ih := ih (fun y hy => h y (by simp [hy]))
      rw [List.filter_cons, ih]
      cases hx : p x <;> cases hy : p y <;> simp [hx, hy, List.filter_cons]
      have := h y (by simp) hx hy
      simp [this] at hlt
    · rfl

theorem isort_filter {lt : α → α → Bool} (p : α → Bool)
    (h : ∀ a b, p a = true → p b = true → lt a b = false) (l : List α) :
    (isort lt l).filter p = l.filter p := by
  induction l with
  | nil => rfl
  | cons x xs ih =>
    rw [isort, insertBy_filter p x _ (fun y _ hx hy => h y x hy hx), List.filter_cons, List.filter_cons, ih]

/-! dedup -/
variable [DecidableEq α]

@[simp] theorem mem_dedup (l : List α) (a : α) : a ∈ dedup l ↔ a ∈ l := by
  induction l with
  | nil => simp [dedup]
  | cons x xs ih =>
    simp only [dedup, List.mem_cons, List.mem_filter, ih]
    by_cases h : a = x <;> simp [h]

theorem nodup_dedup (l : List α) : (dedup l).Nodup := by
  induction l with
  | nil => simp [dedup]
  | cons x xs ih =>
    simp only [dedup, List.nodup_cons, List.mem_filter]
    exact ⟨by simp, ih.filter _⟩

theorem dedup_of_nodup (l : List α) (h : l.Nodup) : dedup l = l := by
  induction l with
  | nil => rfl
  | cons x xs ih =>
    rw [List.nodup_cons] at h
    rw [dedup, ih h.2]
    congr 1
    rw [List.filter_eq_self]
    intro a ha
    simp only [ne_eq, decide_not, Bool.not_eq_eq_eq_not, Bool.not_true, decide_eq_false_iff_not]
    intro e; subst e; exact h.1 ha

end NDP
