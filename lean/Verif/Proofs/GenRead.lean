import Verif.Proofs.Form
/- Reading the generated text, for every multiplier. -/
namespace NDP.Gen
open Spec

theorem assertClauses_size (bs : List Bit) (vs : List Bool) : ∀ c ∈ assertClauses bs vs, c ≠ [] ∧ c.length ≤ 3 := by
  induction bs generalizing vs with
  | nil => cases vs <;> simp [assertClauses]
  | cons b bs ih =>
    intro c hc
    cases vs with
    | nil =>
      simp only [assertClauses, List.mem_append] at hc
      rcases hc with hc | hc
      · cases b <;> simp [assertCls] at hc <;> subst hc <;> simp
      · exact ih _ c hc
    | cons v vs =>
      simp only [assertClauses, List.mem_append] at hc
      rcases hc with hc | hc
      · cases b <;> cases v <;> simp [assertCls] at hc <;> subst hc <;> simp
      · exact ih _ c hc

theorem gen_read_any {H : Type} (a : AdderName) (m : MultName) {N : Nat} (hN : 4 ≤ N) {f1 f2 : Nat}
    (e1 : f1 = Nat.log2 N) (e2 : f2 = (f1 + 2) / 2) :
    ∃ (text : Str) (root : SetObj H) (out : List Bit) (n' : Nat) (cls : List BCl), genText a m N = some text ∧
      readInput .dimacs text = pure root ∧
      GoodDimacs text ∧ dimacsFormula text = genCnf a m N ∧
      symbolic (m.mult a.adder (inputs 1 f1) (inputs (f1 + 1) f2)) (f1 + f2 + 1) = some (out, n', cls) ∧
      genCnf a m N = some ((cls ++ assertClauses (out.filter keepBitVar) (int2bits N)).map fun c => c.map bitInt) ∧
      (∀ c ∈ (cls ++ assertClauses (out.filter keepBitVar) (int2bits N)).map fun c => c.map bitInt, c ≠ [] ∧ c.length ≤ 3 ∧ (0 : Int) ∉ c) ∧
      raws root.clauses = readCls ((cls ++ assertClauses (out.filter keepBitVar) (int2bits N)).map fun c => c.map bitInt) ∧
      (root.clauses ≠ [] → root.value = none) ∧ root.finalNamesMap = [] ∧ root.evaluatedVars = [] ∧
      ∀ c ∈ root.clauses, c.value = none := by
  have hlog : 2 ≤ Nat.log2 N := (Nat.le_log2 (by omega)).2 (by omega)
  have hlen := int2bits_length (n := N) (by omega)
  obtain ⟨out, n', cls, h1, h2⟩ := mult_cnf a m (f1 := f1) (f2 := f2) (by omega) (by omega)
  have hsym := symbolic_multCircuit (m := m.mult a.adder) (out := int2bits N) (cs := out) (next := n') (cls := cls) (by
    rw [hlen, ← h1, Nat.add_sub_cancel, ← e1, show 1 + f1 = f1 + 1 by omega,
      show f1 + 1 + (f1 + 1 + 1) / 2 = f1 + (f1 + 2) / 2 + 1 by omega, ← e2])
  have hlits : ∀ c ∈ cls ++ assertClauses (out.filter keepBitVar) (int2bits N), ∀ b ∈ c, 0 < bvar b := by
    intro c hc
    rcases List.mem_append.1 hc with hc | hc
    · exact fun b hb => (h2.lits c hc b hb).1
    · exact fun b hb => (assertClauses_lits (keep_lits h2.ok) _ c hc b hb).1
  have hszb : ∀ c ∈ cls ++ assertClauses (out.filter keepBitVar) (int2bits N), c ≠ [] ∧ c.length ≤ 3 := by
    intro c hc
    rcases List.mem_append.1 hc with hc | hc
    · exact h2.size c hc
    · exact assertClauses_size _ _ c hc
  obtain ⟨text, ht, hg, hd⟩ := genText_lines (by omega) hsym hlits fun c hc => (hszb c hc).1
  have hsz : ∀ c ∈ (cls ++ assertClauses (out.filter keepBitVar) (int2bits N)).map fun c => c.map bitInt,
      c ≠ [] ∧ c.length ≤ 3 := by
    intro c hc
    obtain ⟨d, hd, rfl⟩ := List.mem_map.1 hc
    have := hszb d hd
    exact ⟨by simpa using this.1, by simpa using this.2⟩
  have hz := lits_ne_zero hlits
  have hread : readInput .dimacs text = pure (addAll ({} : SetObj H) 1
      (((cls ++ assertClauses (out.filter keepBitVar) (int2bits N)).map fun c => c.map bitInt).map dedup)) := by
    show parseDimacs text = _
    exact parseDimacs_good hg hd hsz
  obtain ⟨r1, r2, r3, r4, r5⟩ := raws_addAll (H := H)
    ((cls ++ assertClauses (out.filter keepBitVar) (int2bits N)).map fun c => c.map bitInt)
    (fun c hc => ⟨Or.inl (le_trans (length_dedup_le c) (hsz c hc).2), hz c hc⟩) {} 1 (by simp) (by simp)
  refine ⟨text, _, out, n', cls, ht, hread, hg, ?_, h1, ?_, fun c hc => ⟨(hsz c hc).1, (hsz c hc).2, hz c hc⟩, r1, ?_, r4, r5, addAll_values _ _ _ (by simp)⟩
  · rw [hd, genCnf, hsym]; rfl
  · rw [genCnf, hsym]; rfl
  · intro hne; rw [r3, if_neg hne]

/-! ### the recursive multiplier -/

theorem drop_inputs (s n k : Nat) : (inputs s n).drop k = inputs (s + k) (n - k) := by
  apply List.ext_getElem
  · simp [inputs]
  · intro i h1 h2
    simp [inputs]; omega

end NDP.Gen
