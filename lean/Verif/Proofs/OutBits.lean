import Verif.Proofs.MultCnf
import Mathlib.Data.Nat.Bitwise
/-
  The output bits of a multiplier circuit: none of the first `f1 + f2` is constant, their variables are all different, and
  no output is an input.  All of this follows from the meaning of the circuit alone.
-/
namespace NDP.Gen
open NDP.Spec

theorem testBit_natOfBits (vs : List Bool) (i : Nat) : (natOfBits vs).testBit i = vs.getD i false := by
  induction vs generalizing i with
  | nil => simp [nat_nil]
  | cons v vs ih =>
    rw [nat_cons]
    cases i with
    | zero => cases v <;> simp [Nat.testBit_zero]
    | succ i =>
      rw [Nat.testBit_succ, List.getD_cons_succ, ← ih]
      congr 1
      cases v <;> simp <;> omega

theorem natOfBits_testBit {x k : Nat} (h : x < 2 ^ k) : natOfBits ((List.range k).map fun i => x.testBit i) = x := by
  apply Nat.eq_of_testBit_eq
  intro i
  rw [testBit_natOfBits, List.getD_eq_getElem?_getD, List.getElem?_map]
  by_cases hi : i < k
  · simp [List.getElem?_range, hi]
  · rw [List.getElem?_eq_none (by simpa using hi)]
    simp only [Option.map_none, Option.getD_none]
    exact (Nat.testBit_lt_two_pow (Nat.lt_of_lt_of_le h (Nat.pow_le_pow_right (by omega) (by omega)))).symm

/-- The assignment giving the two inputs the values `x` and `y`. -/
def inpAssign (f1 x y : Nat) : Assign := fun v => if v < f1 + 1 then x.testBit (v - 1) else y.testBit (v - (f1 + 1))

theorem bitsVal_inp {f1 x y : Nat} (hx : x < 2 ^ f1) {ρ : Assign} (h : ∀ v, v < f1 + 1 → ρ v = inpAssign f1 x y v) :
    bitsVal ρ (inputs 1 f1) = x := by
  rw [bitsVal_inputs]
  conv_rhs => rw [← natOfBits_testBit hx]
  congr 1
  apply List.map_congr_left
  intro i hi
  have hi : i < f1 := by simpa using hi
  rw [h _ (by omega), inpAssign, if_pos (by omega)]
  congr 1; omega

theorem bitsVal_inp2 {f1 f2 x y : Nat} (hy : y < 2 ^ f2) {ρ : Assign} (h : ∀ v, v < f1 + f2 + 1 → ρ v = inpAssign f1 x y v) :
    bitsVal ρ (inputs (f1 + 1) f2) = y := by
  rw [bitsVal_inputs]
  conv_rhs => rw [← natOfBits_testBit hy]
  congr 1
  apply List.map_congr_left
  intro i hi
  have hi : i < f2 := by simpa using hi
  rw [h _ (by omega), inpAssign, if_neg (by omega)]
  congr 1; omega

/-! ### bits of products -/

theorem prod_top {f1 f2 : Nat} (h1 : 2 ≤ f1) (h2 : 2 ≤ f2) : 2 ^ (f1 + f2 - 1) ≤ (2 ^ f1 - 1) * (2 ^ f2 - 1) ∧
    (2 ^ f1 - 1) * (2 ^ f2 - 1) < 2 ^ (f1 + f2) := by
  obtain ⟨a, ha⟩ : ∃ a, 2 ^ f1 = 4 + a := ⟨2 ^ f1 - 4, by have := Nat.pow_le_pow_right (show 0 < 2 by omega) h1; omega⟩
  obtain ⟨b, hb⟩ : ∃ b, 2 ^ f2 = 4 + b := ⟨2 ^ f2 - 4, by have := Nat.pow_le_pow_right (show 0 < 2 by omega) h2; omega⟩
  have e : 2 ^ (f1 + f2) = 2 * 2 ^ (f1 + f2 - 1) := by rw [← pow_succ']; congr 1; omega
  have e' : 2 ^ (f1 + f2) = (4 + a) * (4 + b) := by rw [pow_add, ha, hb]
  rw [ha, hb, show 4 + a - 1 = 3 + a by omega, show 4 + b - 1 = 3 + b by omega]
  constructor
  · nlinarith
  · nlinarith

theorem exists_bit {f1 f2 i : Nat} (h1 : 2 ≤ f1) (h2 : 2 ≤ f2) (hi : i < f1 + f2) :
    ∃ x y, x < 2 ^ f1 ∧ y < 2 ^ f2 ∧ (x * y).testBit i = true := by
  by_cases h : i + 1 < f1 + f2
  · refine ⟨2 ^ min i (f1 - 1), 2 ^ (i - min i (f1 - 1)), Nat.pow_lt_pow_right (by omega) (by omega),
      Nat.pow_lt_pow_right (by omega) (by omega), ?_⟩
    rw [← pow_add, show min i (f1 - 1) + (i - min i (f1 - 1)) = i by omega, Nat.testBit_two_pow_self]
  · obtain ⟨t1, t2⟩ := prod_top h1 h2
    refine ⟨2 ^ f1 - 1, 2 ^ f2 - 1, by have := Nat.two_pow_pos f1; omega, by have := Nat.two_pow_pos f2; omega, ?_⟩
    have e : i = f1 + f2 - 1 := by omega
    subst e
    rw [Nat.testBit_eq_decide_div_mod_eq]
    have hd : (2 ^ f1 - 1) * (2 ^ f2 - 1) / 2 ^ (f1 + f2 - 1) = 1 := by
      have e : 2 ^ (f1 + f2) = 2 ^ (f1 + f2 - 1) * 2 := by rw [← pow_succ]; congr 1; omega
      have hp := Nat.two_pow_pos (f1 + f2 - 1)
      apply Nat.le_antisymm
      · have : (2 ^ f1 - 1) * (2 ^ f2 - 1) / 2 ^ (f1 + f2 - 1) < 2 := (Nat.div_lt_iff_lt_mul hp).2 (by omega)
        omega
      · exact (Nat.le_div_iff_mul_le hp).2 (by omega)
    rw [hd]; rfl

theorem exists_bit_sep {f1 f2 i j : Nat} (h1 : 2 ≤ f1) (h2 : 2 ≤ f2) (hi : i < j) (hj : j < f1 + f2) :
    ∃ x y, x < 2 ^ f1 ∧ y < 2 ^ f2 ∧ (x * y).testBit i = true ∧ (x * y).testBit j = false := by
  refine ⟨2 ^ min i (f1 - 1), 2 ^ (i - min i (f1 - 1)), Nat.pow_lt_pow_right (by omega) (by omega),
    Nat.pow_lt_pow_right (by omega) (by omega), ?_⟩
  rw [← pow_add, show min i (f1 - 1) + (i - min i (f1 - 1)) = i by omega, Nat.testBit_two_pow_self]
  exact ⟨rfl, Nat.testBit_two_pow_of_ne (by omega)⟩

/-! ### output bits -/

section
variable {f1 f2 : Nat} {asr pl : Bool} {out : List Bit} {n' : Nat} {cls : List BCl}
  (h : MultCnf (inputs 1 f1) (inputs (f1 + 1) f2) (f1 + f2 + 1) asr pl out n' cls)

theorem MultCnf.run (h : MultCnf (inputs 1 f1) (inputs (f1 + 1) f2) (f1 + f2 + 1) asr pl out n' cls)
    {x y : Nat} (hx : x < 2 ^ f1) (hy : y < 2 ^ f2) : ∃ ρ : Assign, (∀ v, v < f1 + f2 + 1 → ρ v = inpAssign f1 x y v) ∧
      SatB ρ cls ∧ bitsVal ρ out = x * y := by
  obtain ⟨ρ, h1, h2⟩ := h.complete (inpAssign f1 x y)
  refine ⟨ρ, h1, h2, ?_⟩
  rw [h.sound ρ h2, bitsVal_inp hx fun v hv => h1 v (by omega), bitsVal_inp2 hy h1]

theorem bitsVal_bit {ρ : Assign} {p i : Nat} (h : bitsVal ρ out = p) (hi : i < out.length) :
    val ρ out[i] = p.testBit i := by
  rw [← h, bitsVal, testBit_natOfBits, List.getD_eq_getElem?_getD, List.getElem?_map, List.getElem?_eq_getElem hi]
  rfl

theorem MultCnf.length (h : MultCnf (inputs 1 f1) (inputs (f1 + 1) f2) (f1 + f2 + 1) asr pl out n' cls)
    (h1 : 2 ≤ f1) (h2 : 2 ≤ f2) : f1 + f2 ≤ out.length := by
  by_contra hlt
  obtain ⟨x, y, hx, hy, hb⟩ := exists_bit h1 h2 (i := f1 + f2 - 1) (by omega)
  obtain ⟨ρ, _, _, hv⟩ := h.run hx hy
  have := nat_lt (out.map (val ρ))
  rw [List.length_map, show natOfBits (out.map (val ρ)) = x * y from hv] at this
  rw [Nat.testBit_lt_two_pow (Nat.lt_of_lt_of_le this (Nat.pow_le_pow_right (by omega) (by omega)))] at hb
  simp at hb

/-- Bits that depend on a variable take the value the variable says. -/
theorem val_bvar {b b' : Bit} (hb : keepBitVar b = true) (hb' : keepBitVar b' = true) (he : bvar b = bvar b') :
    b = b' ∨ b = notBit b' := by
  cases b <;> cases b' <;> simp_all [keepBitVar, bvar, notBit]

theorem MultCnf.keep (h : MultCnf (inputs 1 f1) (inputs (f1 + 1) f2) (f1 + f2 + 1) asr pl out n' cls)
    (h1 : 2 ≤ f1) (h2 : 2 ≤ f2) {i : Nat} (hi : i < f1 + f2) (hl : i < out.length) : keepBitVar out[i] = true := by
  obtain ⟨x, y, hx, hy, hb⟩ := exists_bit h1 h2 hi
  obtain ⟨ρ, _, _, hv⟩ := h.run hx hy
  obtain ⟨ρ0, _, _, hv0⟩ := h.run (x := 0) (y := 0) (Nat.two_pow_pos _) (Nat.two_pow_pos _)
  have e1 := bitsVal_bit hv hl
  have e0 := bitsVal_bit hv0 hl
  rw [hb] at e1
  rw [Nat.zero_mul, Nat.zero_testBit] at e0
  cases ho : out[i] with
  | const b => rw [ho] at e0 e1; rw [val] at e0 e1; rw [e0] at e1; simp at e1
  | var => rfl
  | nvar => rfl

/-- Two output positions share a variable only when both are superfluous. -/
theorem MultCnf.sep (h : MultCnf (inputs 1 f1) (inputs (f1 + 1) f2) (f1 + f2 + 1) asr pl out n' cls)
    (h1 : 2 ≤ f1) (h2 : 2 ≤ f2) {i j : Nat} (hi : i < f1 + f2) (hij : i < j) (hj : j < out.length)
    (hk : keepBitVar out[j] = true) : bvar out[i] ≠ bvar out[j] := by
  intro he
  have hki := h.keep h1 h2 hi (by omega)
  obtain ⟨ρ0, _, _, hv0⟩ := h.run (x := 0) (y := 0) (Nat.two_pow_pos _) (Nat.two_pow_pos _)
  have a0 := bitsVal_bit hv0 (show i < out.length by omega)
  have b0 := bitsVal_bit hv0 hj
  rw [Nat.zero_mul, Nat.zero_testBit] at a0 b0
  rcases val_bvar hki hk he with e | e
  · have : ∃ x y, x < 2 ^ f1 ∧ y < 2 ^ f2 ∧ (x * y).testBit i = true ∧ (x * y).testBit j = false := by
      by_cases hj' : j < f1 + f2
      · exact exists_bit_sep h1 h2 hij hj'
      · obtain ⟨x, y, hx, hy, hb⟩ := exists_bit h1 h2 hi
        refine ⟨x, y, hx, hy, hb, ?_⟩
        apply Nat.testBit_lt_two_pow
        calc x * y < 2 ^ f1 * 2 ^ f2 := Nat.mul_lt_mul'' hx hy
          _ = 2 ^ (f1 + f2) := (pow_add _ _ _).symm
          _ ≤ 2 ^ j := Nat.pow_le_pow_right (by omega) (by omega)
    obtain ⟨x, y, hx, hy, q1, q2⟩ := this
    obtain ⟨ρ, _, _, hv⟩ := h.run hx hy
    have a1 := bitsVal_bit hv (show i < out.length by omega)
    have b1 := bitsVal_bit hv hj
    rw [e, b1, q1, q2] at a1
    simp at a1
  · rw [e, val_notBit, b0] at a0
    simp at a0

theorem val_of_bvar {b : Bit} (hb : keepBitVar b = true) {ρ ρ' : Assign} (h : val ρ b = val ρ' b) : ρ (bvar b) = ρ' (bvar b) := by
  cases b with
  | const => simp [keepBitVar] at hb
  | var v => exact h
  | nvar v => simpa [val, bvar] using h

/-- No output is an input. -/
theorem MultCnf.fresh (h : MultCnf (inputs 1 f1) (inputs (f1 + 1) f2) (f1 + f2 + 1) asr pl out n' cls)
    {j : Nat} (hj : j < out.length) (hk : keepBitVar out[j] = true) : f1 + f2 < bvar out[j] := by
  by_contra hle
  have hb0 : 0 < bvar out[j] := by
    have := h.ok out[j] (List.getElem_mem hj)
    cases ho : out[j] with
    | const => rw [ho] at hk; simp [keepBitVar] at hk
    | var v => rw [ho] at this; exact this.2.1
    | nvar v => rw [ho] at this; exact this.2.1
  obtain ⟨ρ0, e0, _, hv0⟩ := h.run (x := 0) (y := 0) (Nat.two_pow_pos _) (Nat.two_pow_pos _)
  have b0 := bitsVal_bit hv0 hj
  rw [Nat.zero_mul, Nat.zero_testBit] at b0
  have hp1 := Nat.two_pow_pos f1
  have hp2 := Nat.two_pow_pos f2
  by_cases hv : bvar out[j] < f1 + 1
  · obtain ⟨ρ, e, _, hv1⟩ := h.run (x := 2 ^ f1 - 1) (y := 0) (by omega) (by omega)
    have b1 := bitsVal_bit hv1 hj
    rw [Nat.mul_zero, Nat.zero_testBit] at b1
    have := val_of_bvar hk (b1.trans b0.symm)
    rw [e _ (by omega), e0 _ (by omega), inpAssign, inpAssign, if_pos hv, if_pos hv, Nat.zero_testBit, Nat.testBit_two_pow_sub_one] at this
    simp at this
    omega
  · obtain ⟨ρ, e, _, hv1⟩ := h.run (x := 0) (y := 2 ^ f2 - 1) (by omega) (by omega)
    have b1 := bitsVal_bit hv1 hj
    rw [Nat.zero_mul, Nat.zero_testBit] at b1
    have := val_of_bvar hk (b1.trans b0.symm)
    rw [e _ (by omega), e0 _ (by omega), inpAssign, inpAssign, if_neg hv, if_neg hv, Nat.zero_testBit, Nat.testBit_two_pow_sub_one] at this
    simp at this
    omega

/-- Constant outputs are zero, and dropping them changes nothing. -/
theorem MultCnf.filter (h : MultCnf (inputs 1 f1) (inputs (f1 + 1) f2) (f1 + f2 + 1) asr pl out n' cls)
    (h1 : 2 ≤ f1) (h2 : 2 ≤ f2) : out.filter keepBitVar = out.take (f1 + f2) ++ (out.drop (f1 + f2)).filter keepBitVar := by
  conv_lhs => rw [← List.take_append_drop (f1 + f2) out, List.filter_append]
  congr 1
  rw [List.filter_eq_self]
  intro b hb
  obtain ⟨i, hi, rfl⟩ := List.mem_iff_getElem.1 hb
  rw [List.length_take] at hi
  rw [List.getElem_take]
  exact h.keep h1 h2 (by omega) (by omega)

theorem nat_zero_iff (vs : List Bool) : natOfBits vs = 0 ↔ ∀ b ∈ vs, b = false := by
  induction vs with
  | nil => simp [nat_nil]
  | cons v vs ih => rw [nat_cons, List.forall_mem_cons, ← ih]; cases v <;> simp

theorem MultCnf.filter_val (h : MultCnf (inputs 1 f1) (inputs (f1 + 1) f2) (f1 + f2 + 1) asr pl out n' cls)
    (h1 : 2 ≤ f1) (h2 : 2 ≤ f2) {ρ : Assign} (hs : SatB ρ cls) :
    bitsVal ρ (out.filter keepBitVar) = bitsVal ρ (inputs 1 f1) * bitsVal ρ (inputs (f1 + 1) f2) := by
  rw [← h.sound ρ hs, h.filter h1 h2]
  conv_rhs => rw [← List.take_append_drop (f1 + f2) out]
  have hl := h.length h1 h2
  unfold bitsVal
  rw [List.map_append, nat_append, List.map_append, nat_append]
  have hlt : natOfBits (out.map (val ρ)) < 2 ^ (f1 + f2) := by
    have e1 := nat_lt ((inputs 1 f1).map (val ρ))
    have e2 := nat_lt ((inputs (f1 + 1) f2).map (val ρ))
    rw [List.length_map] at e1 e2
    have l1 : (inputs 1 f1).length = f1 := by simp [inputs]
    have l2 : (inputs (f1 + 1) f2).length = f2 := by simp [inputs]
    rw [l1] at e1
    rw [l2] at e2
    rw [show natOfBits (out.map (val ρ)) = _ from h.sound ρ hs, pow_add]
    exact Nat.mul_lt_mul'' e1 e2
  have hz : natOfBits ((out.drop (f1 + f2)).map (val ρ)) = 0 := by
    rw [← List.take_append_drop (f1 + f2) out, List.map_append, nat_append, List.length_map, List.length_take,
      Nat.min_eq_left hl] at hlt
    by_contra hne
    have : 2 ^ (f1 + f2) * 1 ≤ 2 ^ (f1 + f2) * natOfBits ((out.drop (f1 + f2)).map (val ρ)) :=
      Nat.mul_le_mul_left _ (Nat.pos_of_ne_zero hne)
    omega
  have hz' : natOfBits (((out.drop (f1 + f2)).filter keepBitVar).map (val ρ)) = 0 := by
    rw [nat_zero_iff] at hz ⊢
    intro b hb
    obtain ⟨c, hc, rfl⟩ := List.mem_map.1 hb
    exact hz _ (List.mem_map_of_mem (List.mem_of_mem_filter hc))
  rw [hz, hz']

end

/-! ### the whole formula -/

theorem symbolic_multCircuit {m : Multiplier} {out : List Bool} {cs : List Bit} {next : Nat} {cls : List BCl}
    (h : symbolic (m (inputs 1 (out.length - 1)) (inputs (1 + (out.length - 1)) ((out.length + 1) / 2)))
      (1 + (out.length - 1) + (out.length + 1) / 2) = some (cs, next, cls)) :
    symbolic (multCircuit m out) 1 = some (((inputs 1 (out.length - 1), inputs (1 + (out.length - 1)) ((out.length + 1) / 2)),
      cs.filter keepBitVar), next, cls ++ assertClauses (cs.filter keepBitVar) out) := by
  unfold multCircuit
  have h1 := symbolic_inputs (List.range (out.length - 1)) 1
  have h2 := symbolic_inputs (List.range ((out.length + 1) / 2)) (1 + (out.length - 1))
  rw [List.length_range] at h1 h2
  have h3 := symbolic_assertN (bs := cs.filter keepBitVar) (fun b hb => (List.mem_filter.1 hb).2) out next
  have h4 := symbolic_bind_of (f := fun _ => pure ((inputs 1 (out.length - 1), inputs (1 + (out.length - 1)) ((out.length + 1) / 2)),
      cs.filter keepBitVar)) h3 (symbolic_pure _ _)
  have h5 := symbolic_bind_of (f := fun cs' => do
    assertN (cs'.filter keepBitVar) out
    pure ((inputs 1 (out.length - 1), inputs (1 + (out.length - 1)) ((out.length + 1) / 2)), cs'.filter keepBitVar)) h h4
  have h6 := symbolic_bind_of (f := fun bs => do
    let cs' ← m (inputs 1 (out.length - 1)) bs
    assertN (cs'.filter keepBitVar) out
    pure ((inputs 1 (out.length - 1), bs), cs'.filter keepBitVar)) h2 h5
  have h7 := symbolic_bind_of (f := fun as => do
    let bs ← Circ.mapC (fun (_ : Nat) => newBitVar) (List.range ((out.length + 1) / 2))
    let cs' ← m as bs
    assertN (cs'.filter keepBitVar) out
    pure ((as, bs), cs'.filter keepBitVar)) h1 h6
  simpa using h7

/-- The value of the assertion part of the formula. -/
theorem multCircuit_sat {f1 f2 : Nat} {asr pl : Bool} {cs : List Bit} {n' : Nat} {cls : List BCl}
    (h : MultCnf (inputs 1 f1) (inputs (f1 + 1) f2) (f1 + f2 + 1) asr pl cs n' cls)
    (h1 : 2 ≤ f1) (h2 : 2 ≤ f2) {out : List Bool} (ho : out.length ≤ f1 + f2) (ρ : Assign) :
    SatB ρ (cls ++ assertClauses (cs.filter keepBitVar) out) ↔
      SatB ρ cls ∧ bitsVal ρ (inputs 1 f1) * bitsVal ρ (inputs (f1 + 1) f2) = natOfBits out := by
  rw [SatB.append]
  refine and_congr_right fun hs => ?_
  rw [← h.filter_val h1 h2 hs]
  apply satB_assertClauses
  have := h.length h1 h2
  rw [h.filter h1 h2, List.length_append, List.length_take]
  omega

/-- All three multipliers. -/
theorem mult_cnf (a : AdderName) (m : MultName) {f1 f2 : Nat} (h1 : 1 ≤ f1) (h2 : 1 ≤ f2) :
    ∃ out n' cls, symbolic (m.mult a.adder (inputs 1 f1) (inputs (f1 + 1) f2)) (f1 + f2 + 1) = some (out, n', cls) ∧
      MultCnf (inputs 1 f1) (inputs (f1 + 1) f2) (f1 + f2 + 1) true false out n' cls := by
  have o1 : ∀ b ∈ inputs 1 f1, Ok ⟨false, true⟩ (f1 + f2 + 1) b := by
    intro b hb
    obtain ⟨i, hi, rfl⟩ := List.mem_map.1 hb
    have := List.mem_range.1 hi
    exact ⟨rfl, by omega, by omega⟩
  have o2 : ∀ b ∈ inputs (f1 + 1) f2, Ok ⟨false, true⟩ (f1 + f2 + 1) b := by
    intro b hb
    obtain ⟨i, hi, rfl⟩ := List.mem_map.1 hb
    have := List.mem_range.1 hi
    exact ⟨rfl, by omega, by omega⟩
  have n1 : inputs 1 f1 ≠ [] := by intro e; have := congrArg List.length e; simp [inputs] at this; omega
  have n2 : inputs (f1 + 1) f2 ≠ [] := by intro e; have := congrArg List.length e; simp [inputs] at this; omega
  refine multCnf_of (by omega) (fun ρ => ?_) o1 o2
  have i1 := hasL_of_ok (pl := false) (ρ := ρ) o1 (by simp)
  have i2 := hasL_of_ok (pl := false) (ρ := ρ) o2 (by simp)
  cases m with
  | carrySave => exact run_carrySave (adder_ok a) (by omega) i1 i2 n1 n2
  | wallace => exact run_wallace (adder_ok a) (by omega) i1 i2
  | recursive => exact run_recursive (by decide) (adder_ok a) rfl (by omega) i1 i2

/-- Without internal assertions, with unnegated outputs: carry-save and wallace. -/
theorem mult_cnf_plain (a : AdderName) {m : MultName} (hm : m ≠ .recursive) {f1 f2 : Nat} (h1 : 1 ≤ f1) (h2 : 1 ≤ f2) :
    ∃ out n' cls, symbolic (m.mult a.adder (inputs 1 f1) (inputs (f1 + 1) f2)) (f1 + f2 + 1) = some (out, n', cls) ∧
      MultCnf (inputs 1 f1) (inputs (f1 + 1) f2) (f1 + f2 + 1) false true out n' cls := by
  have o1 : ∀ b ∈ inputs 1 f1, Ok ⟨false, false⟩ (f1 + f2 + 1) b ∧ Pl b := by
    intro b hb
    obtain ⟨i, hi, rfl⟩ := List.mem_map.1 hb
    have := List.mem_range.1 hi
    exact ⟨⟨rfl, by omega, by omega⟩, trivial⟩
  have o2 : ∀ b ∈ inputs (f1 + 1) f2, Ok ⟨false, false⟩ (f1 + f2 + 1) b ∧ Pl b := by
    intro b hb
    obtain ⟨i, hi, rfl⟩ := List.mem_map.1 hb
    have := List.mem_range.1 hi
    exact ⟨⟨rfl, by omega, by omega⟩, trivial⟩
  have n1 : inputs 1 f1 ≠ [] := by intro e; have := congrArg List.length e; simp [inputs] at this; omega
  have n2 : inputs (f1 + 1) f2 ≠ [] := by intro e; have := congrArg List.length e; simp [inputs] at this; omega
  refine multCnf_of (by omega) (fun ρ => ?_) (fun b hb => (o1 b hb).1) (fun b hb => (o2 b hb).1)
  have i1 := hasL_of_ok (pl := true) (ρ := ρ) (fun b hb => (o1 b hb).1) (fun _ b hb => (o1 b hb).2)
  have i2 := hasL_of_ok (pl := true) (ρ := ρ) (fun b hb => (o2 b hb).1) (fun _ b hb => (o2 b hb).2)
  cases m with
  | carrySave => exact run_carrySave (adder_ok a) (by omega) i1 i2 n1 n2
  | wallace => exact run_wallace (adder_ok a) (by omega) i1 i2
  | recursive => exact absurd rfl hm

end NDP.Gen
