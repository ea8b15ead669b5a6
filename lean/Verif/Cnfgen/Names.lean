import Verif.Cnfgen.Core
/-
  Variable names: Python format strings, and that they are pairwise different.
-/
namespace NDP.Cnfgen
open NDP

/-- `'<pre>_{{{0},{1}}}'.format(i,j)`. -/
def fmt2 (pre : Str) (i j : Nat) : Str := pre ++ ('_' :: '{' :: (natStr i ++ ',' :: (natStr j ++ ['}'])))

/-- `'<pre>_{{{0}}}'.format(i)`. -/
def fmt1 (pre : Str) (i : Nat) : Str := pre ++ ('_' :: '{' :: (natStr i ++ ['}']))

theorem natStr_injective {i j : Nat} (h : natStr i = natStr j) : i = j := by
  have h1 := parseInt_natStr i
  rw [h, parseInt_natStr j] at h1
  exact (Int.ofNat.inj (Option.some.inj h1)).symm

/-- Text up to a separator is determined. -/
theorem sep_inj {c : Char} : ∀ {a a' r r' : Str}, c ∉ a → c ∉ a' → a ++ c :: r = a' ++ c :: r' → a = a' ∧ r = r'
  | [], [], r, r', _, _, h => by simpa using h
  | [], x :: a', r, r', _, h2, h => by
    simp only [List.nil_append, List.cons_append, List.cons.injEq] at h
    exact absurd (by simp [h.1]) h2
  | x :: a, [], r, r', h1, _, h => by
    simp only [List.nil_append, List.cons_append, List.cons.injEq] at h
    exact absurd (by simp [h.1]) h1
  | x :: a, y :: a', r, r', h1, h2, h => by
    simp only [List.cons_append, List.cons.injEq] at h
    have := sep_inj (fun hm => h1 (by simp [hm])) (fun hm => h2 (by simp [hm])) h.2
    exact ⟨by rw [h.1, this.1], this.2⟩

theorem sepNat_inj {c : Char} (hc : digitVal? c = none) {i i' : Nat} {r r' : Str}
    (h : natStr i ++ c :: r = natStr i' ++ c :: r') : i = i' ∧ r = r' := by
  have := sep_inj (not_mem_natStr hc) (not_mem_natStr hc) h
  exact ⟨natStr_injective this.1, this.2⟩

theorem fmt2_inj {pre : Str} {i j i' j' : Nat} (h : fmt2 pre i j = fmt2 pre i' j') : i = i' ∧ j = j' := by
  unfold fmt2 at h
  have h := List.append_cancel_left h
  simp only [List.cons.injEq, true_and] at h
  obtain ⟨h1, h2⟩ := sepNat_inj (by decide) h
  exact ⟨h1, (sepNat_inj (c := '}') (by decide) h2).1⟩

theorem fmt1_inj {pre : Str} {i i' : Nat} (h : fmt1 pre i = fmt1 pre i') : i = i' := by
  unfold fmt1 at h
  have h := List.append_cancel_left h
  simp only [List.cons.injEq, true_and] at h
  exact (sepNat_inj (c := '}') (by decide) h).1

theorem fmt2_injective (pre : Str) : Function.Injective (fun p : Nat × Nat => fmt2 pre p.1 p.2) := by
  rintro ⟨i, j⟩ ⟨i', j'⟩ h
  obtain ⟨rfl, rfl⟩ := fmt2_inj h
  rfl

/-- The truth values of the variables `pre_{i,j}` can be chosen freely. -/
theorem exists_fmt2 (pre : Str) (m : Nat → Nat → Prop) : ∃ α : Str → Bool, ∀ i j, α (fmt2 pre i j) = true ↔ m i j := by
  classical
  obtain ⟨α, h⟩ := exists_assign (fmt2_injective pre) (fun p => decide (m p.1 p.2))
  exact ⟨α, fun i j => by rw [h (i, j)]; simp⟩

theorem exists_fmt1 (pre : Str) (m : Nat → Prop) : ∃ α : Str → Bool, ∀ i, α (fmt1 pre i) = true ↔ m i := by
  classical
  obtain ⟨α, h⟩ := exists_assign (f := fmt1 pre) (fun _ _ h => fmt1_inj h) (fun p => decide (m p))
  exact ⟨α, fun i => by rw [h i]; simp⟩

end NDP.Cnfgen
