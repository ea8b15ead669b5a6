import Verif.Proofs.FactRun
/- `Multiply.py`: preprocessing and decoding. -/
namespace NDP
open Spec SetObj Gen
variable {H : Type}

/-! ### binary digits -/

theorem binAux_val (f n : Nat) (h : n ≤ f) : natOfBits (binAux f n) = n := by
  induction f generalizing n with
  | zero => obtain rfl : n = 0 := by omega
            rfl
  | succ f ih =>
    unfold binAux
    split
    · rename_i h2
      have : n = 0 ∨ n = 1 := by omega
      rcases this with rfl | rfl <;> rfl
    · rw [natOfBits, ih _ (by omega)]
      by_cases hm : n % 2 = 1
      · simp only [hm, decide_true, if_true]; omega
      · simp only [hm, decide_false, Bool.false_eq_true, if_false]; omega

theorem binAux_length (f n : Nat) (h : n ≤ f) {w : Nat} (hw : 1 ≤ w) : (binAux f n).length ≤ w ↔ n < 2 ^ w := by
  induction f generalizing n w with
  | zero =>
    obtain rfl : n = 0 := by omega
    simp [binAux, hw]
  | succ f ih =>
    unfold binAux
    split
    · rename_i h2
      have : 2 ^ 1 ≤ 2 ^ w := Nat.pow_le_pow_right (by omega) hw
      simp only [List.length_singleton]
      omega
    · rename_i h2
      obtain ⟨v, rfl⟩ : ∃ v, w = v + 1 := ⟨w - 1, by omega⟩
      rw [List.length_cons]
      rcases Nat.eq_zero_or_pos v with rfl | hv
      · have hl : 1 ≤ (binAux f (n / 2)).length := by
          cases f with
          | zero => simp [binAux]
          | succ f => unfold binAux; split <;> simp
        simp only [Nat.zero_add, pow_one]
        omega
      · have := ih (n / 2) (by omega) hv
        rw [Nat.add_le_add_iff_right, this, pow_succ]
        omega

theorem binAux_ne_nil (f n : Nat) : 1 ≤ (binAux f n).length := by
  cases f with
  | zero => simp [binAux]
  | succ f => unfold binAux; split <;> simp

theorem natOfBits_append_false (l : List Bool) (k : Nat) : natOfBits (l ++ List.replicate k false) = natOfBits l := by
  induction l with
  | nil =>
    induction k with
    | zero => rfl
    | succ k ih =>
      simp only [List.nil_append] at ih ⊢
      rw [List.replicate_succ]
      show 0 + 2 * natOfBits (List.replicate k false) = 0
      rw [ih]; rfl
  | cons b l ih => rw [List.cons_append, natOfBits, ih, natOfBits]

theorem binRjust_val (n : Nat) (w : Int) : natOfBits (binRjust n w) = n := by
  rw [binRjust, natOfBits_append_false, binAux_val n n (Nat.le_refl _)]

/-- A number fits a width (at least 1) exactly when its padded digits are not longer. -/
theorem binRjust_fits (n : Nat) (w : Int) : ¬ w < ((binRjust n w).length : Int) ↔ 1 ≤ w ∧ n < 2 ^ w.toNat := by
  have h1 := binAux_ne_nil n n
  unfold binRjust
  rw [List.length_append, List.length_replicate]
  by_cases hw : 1 ≤ w
  · have := binAux_length n n (Nat.le_refl _) (w := w.toNat) (by omega)
    rw [← this]
    omega
  · omega

theorem binRjust_length {n : Nat} {w : Int} (h : ¬ w < ((binRjust n w).length : Int)) : ((binRjust n w).length : Int) = w := by
  have h1 := binAux_ne_nil n n
  unfold binRjust at h ⊢
  rw [List.length_append, List.length_replicate] at h ⊢
  omega

theorem natOfBits_testBit (l : List Bool) (i : Nat) : (natOfBits l).testBit i = l.getD i false := by
  induction l generalizing i with
  | nil => simp [natOfBits]
  | cons b l ih =>
    cases i with
    | zero =>
      rw [Nat.testBit_zero, natOfBits]
      cases b <;> simp [Nat.add_mod]
    | succ i =>
      rw [Nat.testBit_succ, natOfBits]
      have : ((if b = true then 1 else 0) + 2 * natOfBits l) / 2 = natOfBits l := by
        cases b <;> simp; omega
      rw [this, ih]; simp

theorem numberBits_get (i : Nat) (l : List Bool) (k : Int) :
    Dict.get? (numberBits i l) k = if (i : Int) ≤ k ∧ k < (i : Int) + l.length then some (l.getD (k - i).toNat false) else none := by
  induction l generalizing i with
  | nil => simp only [numberBits, Dict.get?, List.length_nil]; rw [if_neg (by omega)]
  | cons b l ih =>
    rw [numberBits, Dict.get?, ih]
    by_cases e : (i : Int) = k
    · subst e
      simp
    · rw [if_neg e]
      simp only [List.length_cons]
      push_cast
      by_cases hr : (i : Int) ≤ k ∧ k < (i : Int) + (l.length + 1)
      · rw [if_pos (by omega), if_pos hr]
        congr 1
        obtain ⟨j, hj⟩ : ∃ j : Nat, (k - i).toNat = j + 1 := ⟨(k - i).toNat - 1, by omega⟩
        rw [hj, show (k - ((i : Int) + 1)).toNat = j by omega]
        simp
      · rw [if_neg (by omega), if_neg hr]

theorem numberBits_keys (i : Nat) (l : List Bool) : (numberBits i l).keys = (List.range l.length).map fun j => ((i + j : Nat) : Int) := by
  induction l generalizing i with
  | nil => rfl
  | cons b l ih =>
    rw [List.length_cons, List.range_succ_eq_map, List.map_cons, List.map_map]
    show (i : Int) :: (numberBits (i + 1) l).keys = _
    rw [ih]
    congr 1
    apply List.map_congr_left
    intro j _
    simp only [Function.comp_apply]
    push_cast; omega

end NDP
