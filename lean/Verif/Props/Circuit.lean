import Verif.Proofs.OutBits
import Mathlib.Tactic.IntervalCases
/-
  C32: the multiplier circuits of the generator multiply.
-/
namespace NDP.Gen
open NDP.Spec

/-! ### binary numbers -/

theorem int2bitsAux_spec (f n : Nat) (h : n ≤ f) : natOfBits (int2bitsAux f n) = n := by
  induction f generalizing n with
  | zero => have : n = 0 := by omega
            subst this; rfl
  | succ f ih =>
    unfold int2bitsAux
    by_cases h0 : n = 0
    · simp [h0, nat_nil]
    · rw [if_neg h0, nat_cons, ih _ (by omega)]
      rcases Nat.mod_two_eq_zero_or_one n with e | e <;> simp [e] <;> omega

theorem natOfBits_int2bits (n : Nat) : natOfBits (int2bits n) = n := int2bitsAux_spec n n (Nat.le_refl _)

theorem int2bitsAux_length (f n : Nat) (h : n ≤ f) (hn : n ≠ 0) : (int2bitsAux f n).length = Nat.log2 n + 1 := by
  induction f generalizing n with
  | zero => omega
  | succ f ih =>
    unfold int2bitsAux
    rw [if_neg hn, List.length_cons]
    by_cases h1 : n / 2 = 0
    · have : n = 1 := by omega
      subst this
      cases f <;> simp [int2bitsAux] <;> decide
    · rw [ih _ (by omega) h1]
      rw [Nat.log2_def n, if_pos (by omega)]

theorem int2bits_length {n : Nat} (hn : n ≠ 0) : (int2bits n).length = Nat.log2 n + 1 :=
  int2bitsAux_length n n (Nat.le_refl _) hn

/-! ### simulation -/

theorem has_consts (asr pl : Bool) (n : Nat) (ρ : Assign) (hp : pl = false) (xs : List Bool) :
    HasL ⟨true, asr⟩ pl n ρ (xs.map Bit.const) xs := by
  subst hp
  induction xs with
  | nil => exact .nil
  | cons x xs ih => exact .cons ⟨trivial, rfl, by simp⟩ ih

theorem consts_of_has {asr pl : Bool} {n : Nat} {ρ : Assign} {xs : List Bit} {vs : List Bool}
    (h : HasL ⟨true, asr⟩ pl n ρ xs vs) : xs = vs.map Bit.const := by
  induction h with
  | nil => rfl
  | @cons x v _ _ h _ ih =>
    rw [List.map_cons, ← ih]
    congr 1
    cases x with
    | const b => have := h.val; simp [val] at this; rw [this]
    | var => exact absurd h.ok.1 (by simp)
    | nvar => exact absurd h.ok.1 (by simp)

/-- **C32** (simulation) For every adder and multiplier of the generator and all bit vectors (least significant bit first;
not empty in the case of the carry-save multiplier, which fails on empty ones), simulating the circuit succeeds and gives
the bits of the product. -/
theorem C32_simulate (a : AdderName) (m : MultName) (xs ys : List Bool) (hm : m = .carrySave → xs ≠ [] ∧ ys ≠ []) :
    ∃ zs : List Bool, simulate (m.mult a.adder (xs.map Bit.const) (ys.map Bit.const)) = some (zs.map Bit.const) ∧
      natOfBits zs = natOfBits xs * natOfBits ys := by
  have i1 := has_consts true false 1 (fun _ => false) rfl xs
  have i2 := has_consts true false 1 (fun _ => false) rfl ys
  have key : Run ⟨true, true⟩ (m.mult a.adder (xs.map Bit.const) (ys.map Bit.const)) 1 (fun _ => false)
      fun n' ρ' r => ∃ vr, HasL ⟨true, true⟩ false n' ρ' r vr ∧ natOfBits vr = natOfBits xs * natOfBits ys := by
    cases m with
    | carrySave =>
      obtain ⟨h1, h2⟩ := hm rfl
      exact run_carrySave (adder_ok a) (by omega) i1 i2 (by simpa using h1) (by simpa using h2)
    | wallace => exact run_wallace (adder_ok a) (by omega) i1 i2
    | recursive => exact run_recursive (by decide) (adder_ok a) rfl (by omega) i1 i2
  obtain ⟨r, hr, _, vr, h1, h2⟩ := Tot.simulate (by omega) key
  exact ⟨vr, by rw [hr, consts_of_has h1], h2⟩

/-- 5 × 3 with the recursive multiplier. -/
example : ∃ zs : List Bool, simulate (MultName.recursive.mult AdderName.fast.adder
    ([true, false, true].map Bit.const) ([true, true].map Bit.const)) = some (zs.map Bit.const) ∧ natOfBits zs = 15 :=
  C32_simulate .fast .recursive [true, false, true] [true, true] (by simp)

/-- The carry-save multiplier fails when an input is the empty vector (the number 0 as `int2bits` writes it). -/
theorem C32_carrySave_zero (adder : Adder) (xs : List Bit) : simulate (carrySave adder xs []) = none := rfl

/-! ### the formula -/

theorem litVal_bitInt {b : Bit} (h : 0 < bvar b) (ρ : Assign) : litVal ρ (bitInt b) = val ρ b := by
  cases b with
  | const => simp [bvar] at h
  | var v =>
    have hv : ¬ (v : Int) < 0 := by omega
    show litVal ρ (v : Int) = ρ v
    unfold litVal
    rw [if_neg hv]
    rfl
  | nvar v =>
    have hv : 0 < v := h
    simp [litVal, bitInt, val, hv]

theorem sat_map {ρ : Assign} {cls : List BCl} (h : ∀ c ∈ cls, ∀ b ∈ c, 0 < bvar b) :
    Sat ρ (cls.map fun c => c.map bitInt) ↔ SatB ρ cls := by
  unfold Sat SatB
  constructor
  · intro hs c hc
    obtain ⟨l, hl, hv⟩ := hs _ (List.mem_map_of_mem hc)
    obtain ⟨b, hb, rfl⟩ := List.mem_map.1 hl
    exact ⟨b, hb, by rw [← litVal_bitInt (h c hc b hb)]; exact hv⟩
  · intro hs c hc
    obtain ⟨d, hd, rfl⟩ := List.mem_map.1 hc
    obtain ⟨b, hb, hv⟩ := hs d hd
    exact ⟨_, List.mem_map_of_mem hb, by rw [litVal_bitInt (h d hd b hb)]; exact hv⟩

theorem assertClauses_lits {bs : List Bit} {n : Nat} (h : ∀ b ∈ bs, 0 < bvar b ∧ bvar b < n) (vs : List Bool) :
    ∀ c ∈ assertClauses bs vs, ∀ b ∈ c, 0 < bvar b ∧ bvar b < n := by
  induction bs generalizing vs with
  | nil => cases vs <;> (intro c hc; simp [assertClauses] at hc)
  | cons x bs ih =>
    have hx := h x (by simp)
    have hcl : ∀ v, ∀ c ∈ assertCls x v, ∀ b ∈ c, 0 < bvar b ∧ bvar b < n := by
      intro v c hc b hb
      cases v
      · simp [assertCls] at hc; subst hc; rw [List.mem_singleton.1 hb, bvar_notBit]; exact hx
      · simp [assertCls] at hc; subst hc; rw [List.mem_singleton.1 hb]; exact hx
    have ih := ih fun b hb => h b (by simp [hb])
    cases vs with
    | nil => intro c hc; rcases List.mem_append.1 hc with hc | hc
             · exact hcl _ c hc
             · exact ih _ c hc
    | cons v vs => intro c hc; rcases List.mem_append.1 hc with hc | hc
                   · exact hcl _ c hc
                   · exact ih _ c hc

theorem keep_lits {md : Md} {n : Nat} {out : List Bit} (h : ∀ b ∈ out, Ok md n b) :
    ∀ b ∈ out.filter keepBitVar, 0 < bvar b ∧ bvar b < n := by
  intro b hb
  obtain ⟨h1, h2⟩ := List.mem_filter.1 hb
  have := h b h1
  cases b with
  | const => simp [keepBitVar] at h2
  | var v => exact this.2
  | nvar v => exact this.2

/-- **C32** (formula) For every number `N ≥ 4`, adder and multiplier the generator produces a formula; its variables
`1 … f1` are the bits of the first factor and `f1+1 … f1+f2` those of the second (least significant first), where `N` has
`f1 + 1` binary digits and `f2` is half of `f1 + 2`.  Given values of these input bits extend to a model of the formula
exactly when the product of the two numbers is `N`. -/
theorem C32_formula (a : AdderName) (m : MultName) (N : Nat) (hN : 4 ≤ N) :
    ∃ F, genCnf a m N = some F ∧
      ∀ f1 f2, f1 = Nat.log2 N → f2 = (f1 + 2) / 2 → ∀ α : Assign,
        (∃ β : Assign, (∀ v, 1 ≤ v → v ≤ f1 + f2 → β v = α v) ∧ Sat β F) ↔
          natOfBits ((List.range f1).map fun i => α (1 + i)) * natOfBits ((List.range f2).map fun i => α (f1 + 1 + i)) = N := by
  have hlog : 2 ≤ Nat.log2 N := (Nat.le_log2 (by omega)).2 (by omega)
  have hlen := int2bits_length (n := N) (by omega)
  obtain ⟨out, n', cls, h1, h2⟩ := mult_cnf a m (f1 := Nat.log2 N) (f2 := (Nat.log2 N + 2) / 2) (by omega) (by omega)
  have hsym := symbolic_multCircuit (m := m.mult a.adder) (out := int2bits N) (cs := out) (next := n') (cls := cls) (by
    rw [hlen, ← h1, Nat.add_sub_cancel, show 1 + Nat.log2 N = Nat.log2 N + 1 by omega,
      show Nat.log2 N + 1 + (Nat.log2 N + 1 + 1) / 2 = Nat.log2 N + (Nat.log2 N + 2) / 2 + 1 by omega])
  refine ⟨_, by rw [genCnf, hsym]; rfl, ?_⟩
  rintro f1 f2 rfl rfl α
  have hlits : ∀ c ∈ cls ++ assertClauses (out.filter keepBitVar) (int2bits N), ∀ b ∈ c, 0 < bvar b ∧ bvar b < n' := by
    intro c hc
    rcases List.mem_append.1 hc with hc | hc
    · exact h2.lits c hc
    · exact assertClauses_lits (keep_lits h2.ok) _ c hc
  have hiff := fun β => (sat_map (ρ := β) fun c hc b hb => (hlits c hc b hb).1).trans
    (multCircuit_sat h2 hlog (by omega) (out := int2bits N) (by omega) β)
  simp only [hiff, natOfBits_int2bits]
  simp only [bitsVal_inputs]
  have agree : ∀ β : Assign, (∀ v, 1 ≤ v → v ≤ Nat.log2 N + (Nat.log2 N + 2) / 2 → β v = α v) →
      natOfBits ((List.range (Nat.log2 N)).map fun i => β (1 + i)) = natOfBits ((List.range (Nat.log2 N)).map fun i => α (1 + i)) ∧
      natOfBits ((List.range ((Nat.log2 N + 2) / 2)).map fun i => β (Nat.log2 N + 1 + i)) =
        natOfBits ((List.range ((Nat.log2 N + 2) / 2)).map fun i => α (Nat.log2 N + 1 + i)) := by
    intro β hβ
    constructor <;>
    · congr 1
      apply List.map_congr_left
      intro i hi
      have := List.mem_range.1 hi
      exact hβ _ (by omega) (by omega)
  constructor
  · rintro ⟨β, hβ, _, h⟩
    obtain ⟨e1, e2⟩ := agree β hβ
    rw [← e1, ← e2]; exact h
  · intro h
    obtain ⟨β, hb, hs⟩ := h2.complete α
    have hβ : ∀ v, 1 ≤ v → v ≤ Nat.log2 N + (Nat.log2 N + 2) / 2 → β v = α v := fun v _ hv => hb v (by omega)
    obtain ⟨e1, e2⟩ := agree β hβ
    exact ⟨β, hβ, hs, by rw [e1, e2]; exact h⟩

/-- A composite number has factors of the widths the generator provides, and no number is a product of such factors
trivially. -/
theorem composite_widths {N : Nat} (hN : 4 ≤ N) :
    (∃ x y, 1 < x ∧ 1 < y ∧ x * y = N) ↔ ∃ x y, x < 2 ^ Nat.log2 N ∧ y < 2 ^ ((Nat.log2 N + 2) / 2) ∧ x * y = N := by
  have hlo : 2 ^ Nat.log2 N ≤ N := Nat.log2_self_le (by omega)
  have hhi : N < 2 ^ (Nat.log2 N + 1) := Nat.lt_log2_self
  have hlog : 2 ≤ Nat.log2 N := (Nat.le_log2 (by omega)).2 (by omega)
  have main : ∀ x y, 1 < y → y ≤ x → x * y = N → x < 2 ^ Nat.log2 N ∧ y < 2 ^ ((Nat.log2 N + 2) / 2) := by
    intro x y hy hxy he
    constructor
    · rw [pow_succ] at hhi
      nlinarith
    · by_contra hge
      have hge : 2 ^ ((Nat.log2 N + 2) / 2) ≤ y := by omega
      have h2 : 2 ^ ((Nat.log2 N + 2) / 2) * 2 ^ ((Nat.log2 N + 2) / 2) ≤ x * y := Nat.mul_le_mul (by omega) hge
      rw [← pow_add] at h2
      have h3 : 2 ^ (Nat.log2 N + 1) ≤ 2 ^ ((Nat.log2 N + 2) / 2 + (Nat.log2 N + 2) / 2) :=
        Nat.pow_le_pow_right (by omega) (by omega)
      omega
  constructor
  · rintro ⟨x, y, hx, hy, he⟩
    rcases Nat.le_total y x with h | h
    · obtain ⟨h1, h2⟩ := main x y hy h he
      exact ⟨x, y, h1, h2, he⟩
    · obtain ⟨h1, h2⟩ := main y x hx h (by rw [Nat.mul_comm]; exact he)
      exact ⟨y, x, h1, h2, by rw [Nat.mul_comm]; exact he⟩
  · rintro ⟨x, y, hx, hy, he⟩
    have hy' : y < 2 ^ Nat.log2 N := Nat.lt_of_lt_of_le hy (Nat.pow_le_pow_right (by omega) (by omega))
    refine ⟨x, y, ?_, ?_, he⟩
    · rcases Nat.lt_or_ge 1 x with h | h
      · exact h
      · interval_cases x <;> omega
    · rcases Nat.lt_or_ge 1 y with h | h
      · exact h
      · interval_cases y <;> omega

/-- **C32** (satisfiability) The formula generated for `N ≥ 4` is satisfiable exactly when `N` is composite. -/
theorem C32_satisfiable (a : AdderName) (m : MultName) (N : Nat) (hN : 4 ≤ N) :
    ∃ F, genCnf a m N = some F ∧ (Satisfiable F ↔ ∃ x y, 1 < x ∧ 1 < y ∧ x * y = N) := by
  obtain ⟨F, hF, h⟩ := C32_formula a m N hN
  refine ⟨F, hF, ?_⟩
  have h := h _ _ rfl rfl
  rw [composite_widths hN]
  constructor
  · rintro ⟨α, hα⟩
    have e := (h α).1 ⟨α, fun _ _ _ => rfl, hα⟩
    refine ⟨_, _, ?_, ?_, e⟩
    · simpa using nat_lt ((List.range (Nat.log2 N)).map fun i => α (1 + i))
    · simpa using nat_lt ((List.range ((Nat.log2 N + 2) / 2)).map fun i => α (Nat.log2 N + 1 + i))
  · rintro ⟨x, y, hx, hy, he⟩
    obtain ⟨β, _, hβ⟩ := (h (inpAssign (Nat.log2 N) x y)).2 (by
      rw [← bitsVal_inputs, ← bitsVal_inputs, bitsVal_inp hx fun _ _ => rfl,
        bitsVal_inp2 (f2 := (Nat.log2 N + 2) / 2) hy fun _ _ => rfl, he])
    exact ⟨β, hβ⟩

/-- 15 = 5 × 3 with any options; 13 is prime. -/
example (a : AdderName) (m : MultName) : ∃ F, genCnf a m 15 = some F ∧ Satisfiable F := by
  obtain ⟨F, h1, h2⟩ := C32_satisfiable a m 15 (by omega)
  exact ⟨F, h1, h2.2 ⟨5, 3, by omega, by omega, rfl⟩⟩

end NDP.Gen
