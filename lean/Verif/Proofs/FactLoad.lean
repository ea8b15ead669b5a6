import Verif.Proofs.FactPre
import Verif.Proofs.Solve
import Mathlib.Data.Nat.Prime.Defs
/- The preprocessed set can be handed to the solver: it has clauses, none of them empty. -/
namespace NDP
open Spec SetObj Gen
variable {H : Type}

/-! ### odd products with prescribed digits -/

set_option maxRecDepth 100000 in
theorem low_digits : ∀ L ∈ List.range 32, L % 2 = 1 → ∀ c < 3, ∀ p < 5, ∀ q < 5, ∃ L' ∈ List.range 32, L' % 2 = 1 ∧
    (32 * c + L') % 3 = 0 ∧ Nat.testBit L' p = Nat.testBit L p ∧ Nat.testBit L' q = Nat.testBit L q := by decide +kernel

set_option maxRecDepth 100000 in
theorem five_digits : ∀ N ∈ List.range 32, 16 ≤ N → N % 2 = 1 → ∀ p < 7, ∀ q < 7, ∃ x ∈ List.range 16, ∃ y ∈ List.range 8,
    x % 2 = 1 ∧ y % 2 = 1 ∧ Nat.testBit (x * y) 4 = Nat.testBit N 4 ∧ Nat.testBit (x * y) p = Nat.testBit N p ∧
    Nat.testBit (x * y) q = Nat.testBit N q := by decide +kernel

/-- Odd factors of the right widths whose product has two given digits of `N` besides the top one. -/
theorem agree_top {N f1 f2 : Nat} (ho : N % 2 = 1) (e1 : f1 = Nat.log2 N) (e2 : f2 = (f1 + 2) / 2) (h16 : 16 ≤ N)
    (p q : Nat) (hp : p < f1 + f2) (hq : q < f1 + f2) :
    ∃ x y, x < 2 ^ f1 ∧ y < 2 ^ f2 ∧ x % 2 = 1 ∧ y % 2 = 1 ∧ (x * y).testBit f1 = N.testBit f1 ∧
      (x * y).testBit p = N.testBit p ∧ (x * y).testBit q = N.testBit q := by
  have hlog : 4 ≤ Nat.log2 N := (Nat.le_log2 (by omega)).2 (by omega)
  have hhi : N < 2 ^ (Nat.log2 N + 1) := Nat.lt_log2_self
  have hlo : 2 ^ Nat.log2 N ≤ N := Nat.log2_self_le (by omega)
  by_cases h5 : f1 = 4
  · subst h5
    have hf2 : f2 = 3 := by omega
    subst hf2
    rw [← e1] at hhi
    obtain ⟨x, hx, y, hy, h⟩ := five_digits N (List.mem_range.2 (by omega)) h16 ho p hp q hq
    exact ⟨x, y, List.mem_range.1 hx, List.mem_range.1 hy, h⟩
  · have h5 : 5 ≤ f1 := by omega
    obtain ⟨L', hL', hodd, hdiv, hp', hq'⟩ := low_digits (N % 32) (List.mem_range.2 (by omega)) (by omega) (N / 32 % 3)
      (by omega) (if p < 5 then p else 0) (by split <;> omega) (if q < 5 then q else 0) (by split <;> omega)
    rw [List.mem_range] at hL'
    have hN : N = 2 ^ 5 * (N / 32) + N % 32 := by omega
    have hmod : (2 ^ 5 * (N / 32) + L') % 3 = 0 := by omega
    have hbit : ∀ i, (5 ≤ i ∨ L'.testBit i = (N % 32).testBit i) → (2 ^ 5 * (N / 32) + L').testBit i = N.testBit i := by
      intro i hi
      conv_rhs => rw [hN]
      rw [Nat.testBit_two_pow_mul_add _ (by omega), Nat.testBit_two_pow_mul_add _ (by omega)]
      by_cases h : i < 5
      · rw [if_pos h, if_pos h]; exact hi.resolve_left (by omega)
      · rw [if_neg h, if_neg h]
    have h32 : 2 ^ 5 * 2 ^ (f1 - 4) = 2 ^ (f1 + 1) := by rw [← pow_add]; congr 1; omega
    have hdivlt : N / 32 < 2 ^ (f1 - 4) := by
      rw [← e1, ← h32] at hhi
      omega
    have hpow : 2 ^ (f1 + 1) = 2 * 2 ^ f1 := by rw [pow_succ]; ring
    obtain ⟨x, hx⟩ : ∃ x, 2 ^ 5 * (N / 32) + L' = x * 3 := ⟨(2 ^ 5 * (N / 32) + L') / 3, by omega⟩
    refine ⟨x, 3, by omega, ?_, by omega, rfl, ?_, ?_, ?_⟩
    · have : 2 ^ 2 ≤ 2 ^ f2 := Nat.pow_le_pow_right (by omega) (by omega)
      omega
    · rw [← hx]; exact hbit _ (Or.inl h5)
    · rw [← hx]; apply hbit
      by_cases h : p < 5
      · rw [if_pos h] at hp'; exact Or.inr hp'
      · exact Or.inl (by omega)
    · rw [← hx]; apply hbit
      by_cases h : q < 5
      · rw [if_pos h] at hq'; exact Or.inr hq'
      · exact Or.inl (by omega)

/-- Odd factors of the right widths whose product has up to three given digits of `N`. -/
theorem agree_three {N f1 f2 : Nat} (ho : N % 2 = 1) (e1 : f1 = Nat.log2 N) (e2 : f2 = (f1 + 2) / 2) (h16 : 16 ≤ N)
    {I : List Nat} (hI : I.length ≤ 3) (hlt : ∀ i ∈ I, i < f1 + f2) :
    ∃ x y, x < 2 ^ f1 ∧ y < 2 ^ f2 ∧ x % 2 = 1 ∧ y % 2 = 1 ∧ ∀ i ∈ I, (x * y).testBit i = N.testBit i := by
  have hlog : 4 ≤ Nat.log2 N := (Nat.le_log2 (by omega)).2 (by omega)
  have hhi : N < 2 ^ (Nat.log2 N + 1) := Nat.lt_log2_self
  by_cases hm : f1 ∈ I
  · have : ∃ p q, p < f1 + f2 ∧ q < f1 + f2 ∧ ∀ i ∈ I, i = f1 ∨ i = p ∨ i = q := by
      match I, hI, hlt, hm with
      | [a], _, _, hm => exact ⟨f1, f1, by omega, by omega, fun i hi => by simp at hm hi; omega⟩
      | [a, b], _, hlt, hm => exact ⟨a, b, hlt a (by simp), hlt b (by simp), fun i hi => by simp at hi; omega⟩
      | [a, b, c], _, hlt, hm =>
        simp only [List.mem_cons, List.not_mem_nil, or_false] at hm
        rcases hm with h | h | h
        · exact ⟨b, c, hlt b (by simp), hlt c (by simp), fun i hi => by simp at hi; omega⟩
        · exact ⟨a, c, hlt a (by simp), hlt c (by simp), fun i hi => by simp at hi; omega⟩
        · exact ⟨a, b, hlt a (by simp), hlt b (by simp), fun i hi => by simp at hi; omega⟩
    obtain ⟨p, q, hp, hq, hpq⟩ := this
    obtain ⟨x, y, h1, h2, h3, h4, h5, h6, h7⟩ := agree_top ho e1 e2 h16 p q hp hq
    refine ⟨x, y, h1, h2, h3, h4, ?_⟩
    intro i hi
    rcases hpq i hi with rfl | rfl | rfl <;> assumption
  · refine ⟨N % 2 ^ f1, 1, Nat.mod_lt _ (Nat.two_pow_pos _), Nat.one_lt_two_pow (by omega), ?_, rfl, ?_⟩
    · rw [Nat.mod_mod_of_dvd _ (dvd_pow_self 2 (by omega))]; exact ho
    · intro i hi
      rw [Nat.mul_one, Nat.testBit_mod_two_pow]
      by_cases h : i < f1
      · simp [h]
      · have hne : i ≠ f1 := fun e => hm (e ▸ hi)
        rw [Nat.testBit_lt_two_pow (x := N) (lt_of_lt_of_le hhi (Nat.pow_le_pow_right (by omega) (by omega)))]
        simp [h]

/-! ### no clause becomes empty -/

theorem numAt_inp {f1 f2 x y : Nat} (hx : x < 2 ^ f1) (hy : y < 2 ^ f2) {α : Assign}
    (h : ∀ v, v ≤ f1 + f2 → α v = inpAssign f1 x y v) : numAt α 1 f1 = x ∧ numAt α (f1 + 1) f2 = y := by
  have h1 := bitsVal_inp (f1 := f1) (y := y) hx (ρ := α) (by intro v hv; exact h v (by omega))
  have h2 := bitsVal_inp2 (f1 := f1) (x := x) hy (ρ := α) (by intro v hv; exact h v (by omega))
  rw [bitsVal_inputs] at h1 h2
  exact ⟨h1, h2⟩

/-- A model of the gates with given inputs. -/
theorem Gen.MultForm.run {f1 f2 : Nat} {vs : List Nat} {G : Cnf} (h : MultForm f1 f2 vs G) {x y : Nat}
    (hx : x < 2 ^ f1) (hy : y < 2 ^ f2) : ∃ α : Assign, Sat α G ∧ (∀ v, v ≤ f1 + f2 → α v = inpAssign f1 x y v) ∧
      numAt α 1 f1 = x ∧ numAt α (f1 + 1) f2 = y ∧ ∀ i (hi : i < vs.length), α vs[i] = (x * y).testBit i := by
  obtain ⟨α, h1, h2⟩ := h.complete (inpAssign f1 x y)
  obtain ⟨h3, h4⟩ := numAt_inp hx hy h1
  refine ⟨α, h2, h1, h3, h4, ?_⟩
  intro i hi
  have e := h.sound α h2
  rw [h3, h4] at e
  rw [← e, testBit_natOfBits, List.getD_eq_getElem?_getD, List.getElem?_map, List.getElem?_eq_getElem hi]
  rfl

/-- A gate clause is not falsified when some product has the right digits at its variables. -/
theorem gate_alive {f1 f2 : Nat} {vs : List Nat} {G : Cnf} (h : MultForm f1 f2 vs G) {bs : List Bool} {odd : Prop}
    {vm : Dict Int Bool} (hm : FactMap f1 vs bs odd vm) {c : List Int} (hc : c ∈ G) {x y : Nat}
    (hx : x < 2 ^ f1) (hy : y < 2 ^ f2) (hodd : odd → x % 2 = 1 ∧ y % 2 = 1)
    (hag : ∀ i (hi : i < vs.length), vs[i] ∈ c.map Int.natAbs → (x * y).testBit i = bs.getD i false) :
    ∃ l ∈ c, partialVal vm l ≠ some false := by
  obtain ⟨α, h1, h2, h3, h4, h5⟩ := h.run hx hy
  obtain ⟨l, hl, hv⟩ := h1 c hc
  refine ⟨l, hl, ?_⟩
  intro hp
  have hval : ∀ b, vm.get? (l.natAbs : Int) = some b → α l.natAbs = b := by
    intro b hb
    by_cases hvs : l.natAbs ∈ vs
    · obtain ⟨i, hi, e⟩ := List.mem_iff_getElem.1 hvs
      rw [← e, hm.get i hi] at hb
      rw [← e, h5 i hi, hag i hi (by rw [e]; exact List.mem_map_of_mem hl)]
      simpa using hb
    · rcases (hm.keys _).1 (Dict.mem_keys_of_get? hb) with ⟨w, hw, e⟩ | ⟨ho, hk⟩
      · have : l.natAbs = w := by omega
        exact absurd (this ▸ hw) hvs
      · obtain ⟨ox, oy⟩ := hodd ho
        rcases hk with hk | hk
        · have e : l.natAbs = 1 := by omega
          rw [hk, hm.one ho] at hb
          rw [e, numAt_zero_odd (α := α) (s := 1) (k := f1) (by rw [h3]; exact ox)]
          simpa using hb
        · have e : l.natAbs = f1 + 1 := by omega
          rw [hk, hm.two ho] at hb
          rw [e, numAt_zero_odd (α := α) (s := f1 + 1) (k := f2) (by rw [h4]; exact oy)]
          simpa using hb
  unfold partialVal at hp
  cases hg : vm.get? (l.natAbs : Int) with
  | none => rw [hg] at hp; simp at hp
  | some b =>
    have := hval b hg
    rw [hg] at hp
    unfold litVal at hv
    rw [this] at hv
    simp only [Option.map_some, Option.some.injEq] at hp
    rw [hv] at hp
    exact absurd hp (by simp)

/-- Positions of the output digits among the variables of a clause. -/
def digitsOf (n : Nat) (vs : List Nat) (c : List Int) : List Nat :=
  (List.range n).filter fun i => decide (vs.getD i 0 ∈ c.map Int.natAbs)

theorem digitsOf_length {f1 f2 : Nat} {vs : List Nat} {G : Cnf} (h : MultForm f1 f2 vs G) (c : List Int) :
    (digitsOf (f1 + f2) vs c).length ≤ c.length := by
  have hlen := h.length
  have hn : ((digitsOf (f1 + f2) vs c).map fun i => vs.getD i 0).Nodup := by
    apply List.Nodup.map_on
    · intro i hi j hj e
      have hi := List.mem_range.1 (List.mem_filter.1 hi).1
      have hj := List.mem_range.1 (List.mem_filter.1 hj).1
      rw [List.getD_eq_getElem?_getD, List.getD_eq_getElem?_getD, List.getElem?_eq_getElem (by omega),
        List.getElem?_eq_getElem (by omega)] at e
      have e' : (vs.take (f1 + f2))[i]'(by simp; omega) = (vs.take (f1 + f2))[j]'(by simp; omega) := by
        rw [List.getElem_take, List.getElem_take]; exact e
      exact (List.Nodup.getElem_inj_iff h.low).1 e'
    · exact List.nodup_range.filter _
  have hs : ((digitsOf (f1 + f2) vs c).map fun i => vs.getD i 0) ⊆ c.map Int.natAbs := by
    intro v hv
    obtain ⟨i, hi, rfl⟩ := List.mem_map.1 hv
    simpa using (List.mem_filter.1 hi).2
  have := (hn.subperm hs).length_le
  simpa using this

theorem gate_alive_odd {N f1 f2 : Nat} (ho : N % 2 = 1) (e1 : f1 = Nat.log2 N) (e2 : f2 = (f1 + 2) / 2) (h16 : 16 ≤ N)
    {vs : List Nat} {G : Cnf} (h : MultForm f1 f2 vs G) {bs : List Bool} (hb : bs.length ≤ f1 + f2) (hN : natOfBits bs = N)
    {odd : Prop} {vm : Dict Int Bool} (hm : FactMap f1 vs bs odd vm) {c : List Int} (hc : c ∈ G) :
    ∃ l ∈ c, partialVal vm l ≠ some false := by
  obtain ⟨x, y, h1, h2, h3, h4, h5⟩ := agree_three ho e1 e2 h16 (I := digitsOf (f1 + f2) vs c)
    (le_trans (digitsOf_length h c) (h.long c hc).2) (fun i hi => List.mem_range.1 (List.mem_filter.1 hi).1)
  refine gate_alive h hm hc h1 h2 (fun _ => ⟨h3, h4⟩) ?_
  intro i hi hv
  have hbit : bs.getD i false = N.testBit i := by rw [← hN, testBit_natOfBits]
  rw [hbit]
  by_cases hlt : i < f1 + f2
  · apply h5
    refine List.mem_filter.2 ⟨List.mem_range.2 hlt, ?_⟩
    rw [List.getD_eq_getElem?_getD, List.getElem?_eq_getElem hi]
    simpa using hv
  · rw [← hbit, List.getD_eq_getElem?_getD, List.getElem?_eq_none (by omega)]
    apply Nat.testBit_lt_two_pow
    refine lt_of_lt_of_le (Nat.mul_lt_mul'' h1 h2) ?_
    rw [← pow_add]
    exact Nat.pow_le_pow_right (by omega) (by omega)

/-- The small primes, by evaluation: no gate is falsified by the fixed values. -/
def aliveCheck (a : AdderName) (m : MultName) (N f1 f2 : Nat) : Bool :=
  match symbolic (m.mult a.adder (inputs 1 f1) (inputs (f1 + 1) f2)) (f1 + f2 + 1) with
  | none => false
  | some (out, _, cls) => cls.all fun c => c.any fun b =>
      decide (partialVal (fixedVars f1 ((out.filter keepBitVar).map bvar) (int2bits N)) (bitInt b) ≠ some false)

set_option maxRecDepth 1000000 in
theorem small_alive (a : AdderName) {m : MultName} (N : Nat) (hN : N = 5 ∨ N = 7 ∨ N = 11 ∨ N = 13) :
    aliveCheck a m N (Nat.log2 N) ((Nat.log2 N + 2) / 2) = true := by
  rcases hN with rfl | rfl | rfl | rfl <;> cases a <;> cases m <;> decide +kernel

theorem unitsOf_val {vs : List Nat} {bs : List Bool} {c : List Int} (h : c ∈ unitsOf vs bs) :
    ∃ i, ∃ hi : i < vs.length, c = [if bs.getD i false then (vs[i] : Int) else -(vs[i] : Int)] := by
  induction vs generalizing bs with
  | nil => cases bs <;> simp [unitsOf] at h
  | cons v vs ih =>
    cases bs with
    | nil =>
      rcases List.mem_cons.1 h with rfl | h
      · exact ⟨0, by simp, by simp⟩
      · obtain ⟨i, hi, e⟩ := ih h
        exact ⟨i + 1, by simpa using hi, by simpa using e⟩
    | cons b bs =>
      rcases List.mem_cons.1 h with rfl | h
      · exact ⟨0, by simp, by simp⟩
      · obtain ⟨i, hi, e⟩ := ih h
        exact ⟨i + 1, by simpa using hi, by simpa using e⟩

/-- Two digits or more, all gates keep an open or true literal: the preprocessed set is a formula without empty clauses. -/
theorem no_empty {f1 f2 : Nat} {vs : List Nat} {G : Cnf} {bs : List Bool} {root : SetObj H}
    (h : MultSet f1 f2 vs G bs root) {odd : Prop} {vm : Dict Int Bool} (hm : FactMap f1 vs bs odd vm)
    (hg : ∀ c ∈ G, ∃ l ∈ c, partialVal vm l ≠ some false) : [] ∉ residual vm (raws root.clauses) := by
  intro hmem
  obtain ⟨c, hc, h1, h2⟩ := mem_residual.1 hmem
  have hall : ∀ l ∈ c, partialVal vm l = some false := by
    intro l hl
    have hn : partialVal vm l ≠ none := by
      intro e
      have : l ∈ openLits vm c := mem_openLits.2 ⟨hl, e⟩
      rw [← h2] at this; simp at this
    cases hp : partialVal vm l with
    | none => exact absurd hp hn
    | some b =>
      cases b with
      | false => rfl
      | true => exact absurd hp (h1 l hl)
  rw [h.eqn] at hc
  rcases List.mem_append.1 hc with hc | hc
  · obtain ⟨l, hl, hn⟩ := hg c hc
    exact hn (hall l hl)
  · obtain ⟨i, hi, rfl⟩ := unitsOf_val hc
    have := hall (if bs.getD i false then (vs[i] : Int) else -(vs[i] : Int)) (List.mem_singleton.2 rfl)
    have hpos := h.form.fresh _ (List.getElem_mem hi)
    have hget := hm.get i hi
    have e1 : (((if bs.getD i false then (vs[i] : Int) else -(vs[i] : Int)).natAbs : Nat) : Int) = (vs[i] : Int) := by
      split <;> simp
    unfold partialVal at this
    rw [e1, hget] at this
    simp only [Option.map_some, Option.some.injEq] at this
    cases hb : bs.getD i false with
    | true => rw [hb] at this; simp only [if_true] at this; rw [if_neg (by omega)] at this; simp at this
    | false => rw [hb] at this; simp only [Bool.false_eq_true, if_false] at this; rw [if_pos (by omega)] at this; simp at this

/-- No assignment of the fixed values alone makes the formula true. -/
theorem not_all_true {f1 f2 : Nat} {vs : List Nat} {G : Cnf} {bs : List Bool} {root : SetObj H}
    (h : MultSet f1 f2 vs G bs root) (hb : bs.length ≤ f1 + f2) (h4 : 4 ≤ natOfBits bs) {odd : Prop} {vm : Dict Int Bool}
    (hm : FactMap f1 vs bs odd vm) : residual vm (raws root.clauses) ≠ [] := by
  intro e
  rw [residual_nil_iff] at e
  let α : Assign := fun v => (vm.get? (v : Int)).getD false
  have ha : Agrees α vm := by intro v b hb; simp [α, hb]
  have hs : Sat α (raws root.clauses) := by
    rw [sat_residual ha, residual_nil_iff.2 e]
    intro c hc; simp at hc
  have hp := ((h.sat_iff hb α).1 hs).2
  have hz : ∀ v, v ≤ f1 + f2 → v ≠ 1 → v ≠ f1 + 1 → α v = false := by
    intro v hv h1 h2
    show (vm.get? (v : Int)).getD false = false
    have : vm.get? (v : Int) = none := by
      rw [Dict.get?_eq_none_iff, hm.keys]
      rintro (⟨w, hw, e⟩ | ⟨_, e | e⟩)
      · have := h.form.fresh w hw; omega
      · omega
      · omega
    rw [this]; rfl
  have hle : ∀ s k, 0 < s → (∀ i, 0 < i → i < k → α (s + i) = false) → numAt α s k ≤ 1 := by
    intro s k _ hk
    unfold numAt
    cases k with
    | zero => simp [natOfBits]
    | succ k =>
      rw [List.range_succ_eq_map, List.map_cons, natOfBits]
      have : natOfBits ((List.map Nat.succ (List.range k)).map fun i => α (s + i)) = 0 := by
        rw [nat_zero_iff]
        intro b hb
        rw [List.map_map] at hb
        obtain ⟨i, hi, rfl⟩ := List.mem_map.1 hb
        have := List.mem_range.1 hi
        exact hk _ (by omega) (by simp; omega)
      rw [this]
      split <;> omega
  have l1 := hle 1 f1 (by omega) (fun i h1 h2 => hz _ (by omega) (by omega) (by omega))
  have l2 := hle (f1 + 1) f2 (by omega) (fun i h1 h2 => hz _ (by omega) (by omega) (by omega))
  have : numAt α 1 f1 * numAt α (f1 + 1) f2 ≤ 1 * 1 := Nat.mul_le_mul l1 l2
  omega

/-- Every gate keeps an open or true literal. -/
theorem gates_alive {H : Type} (a : AdderName) {m : MultName} {N : Nat} (hN : 4 ≤ N) {f1 f2 : Nat}
    (e1 : f1 = Nat.log2 N) (e2 : f2 = (f1 + 2) / 2) {out : List Bit} {n' : Nat} {cls : List BCl} {root : SetObj H}
    (hsym : symbolic (m.mult a.adder (inputs 1 f1) (inputs (f1 + 1) f2)) (f1 + f2 + 1) = some (out, n', cls))
    (h : MultSet f1 f2 ((out.filter keepBitVar).map bvar) (readCls (cls.map fun c => c.map bitInt)) (int2bits N) root)
    (hm : FactMap f1 ((out.filter keepBitVar).map bvar) (int2bits N) (natOfBits (int2bits N) % 2 = 1)
      (fixedVars f1 ((out.filter keepBitVar).map bvar) (int2bits N))) :
    ∀ c ∈ readCls (cls.map fun c => c.map bitInt), ∃ l ∈ c,
      partialVal (fixedVars f1 ((out.filter keepBitVar).map bvar) (int2bits N)) l ≠ some false := by
  intro c hc
  have hlen := int2bits_length (n := N) (by omega)
  have hlog : 2 ≤ Nat.log2 N := (Nat.le_log2 (by omega)).2 (by omega)
  have hb : (int2bits N).length ≤ f1 + f2 := by omega
  have hnat := natOfBits_int2bits N
  by_cases hcomp : ∃ x y, 1 < x ∧ 1 < y ∧ x * y = N
  · obtain ⟨x, y, hx, hy, hxy⟩ := (composite_widths hN).1 hcomp
    rw [← e1] at hx hy
    rw [← e2] at hy
    obtain ⟨α, h1, h2, h3, h4, _⟩ := h.form.run hx hy
    have hs : Sat α (raws root.clauses) := (h.sat_iff hb α).2 ⟨h1, by rw [h3, h4, hxy, hnat]⟩
    have ha := h.agrees hb hm hs
    obtain ⟨l, hl, hv⟩ := h1 c hc
    refine ⟨l, hl, fun hp => ?_⟩
    rw [litVal_of_partial ha hp] at hv
    simp at hv
  · have hodd : N % 2 = 1 := by
      by_contra he
      exact hcomp ⟨2, N / 2, by omega, by omega, by omega⟩
    by_cases h16 : 16 ≤ N
    · exact gate_alive_odd hodd e1 e2 h16 h.form hb hnat hm hc
    · have h9 : N ≠ 9 := by rintro rfl; exact hcomp ⟨3, 3, by omega, by omega, rfl⟩
      have h15 : N ≠ 15 := by rintro rfl; exact hcomp ⟨3, 5, by omega, by omega, rfl⟩
      have hsm := small_alive a (m := m) N (by omega)
      unfold aliveCheck at hsm
      rw [← e1, ← e2, hsym] at hsm
      simp only [List.all_eq_true, List.any_eq_true, decide_eq_true_eq] at hsm
      obtain ⟨d, hd, _, rfl⟩ := readCls_mem hc
      obtain ⟨e, he, rfl⟩ := List.mem_map.1 hd
      obtain ⟨b, hb', hv⟩ := hsm e he
      exact ⟨bitInt b, by simpa using ⟨b, hb', rfl⟩, hv⟩

/-- The preprocessed set of a generated formula is ready for the solver. -/
theorem fact_loaded (a : AdderName) {m : MultName} {N : Nat} (hN : 4 ≤ N) {f1 f2 : Nat}
    (e1 : f1 = Nat.log2 N) (e2 : f2 = (f1 + 2) / 2) {out : List Bit} {n' : Nat} {cls : List BCl} {root : SetObj H}
    (hsym : symbolic (m.mult a.adder (inputs 1 f1) (inputs (f1 + 1) f2)) (f1 + f2 + 1) = some (out, n', cls))
    (h : MultSet f1 f2 ((out.filter keepBitVar).map bvar) (readCls (cls.map fun c => c.map bitInt)) (int2bits N) root)
    {info : FactInfo} {root' : SetObj H}
    (hp : FactPre f1 f2 ((out.filter keepBitVar).map bvar) (int2bits N) root info root') : Loaded (raws root.clauses) root' := by
  have hlen := int2bits_length (n := N) (by omega)
  have hlog : 2 ≤ Nat.log2 N := (Nat.le_log2 (by omega)).2 (by omega)
  have hb : (int2bits N).length ≤ f1 + f2 := by omega
  have hm := hp.map
  have hne := no_empty h hm (by rw [hp.ev]; exact gates_alive a hN e1 e2 hsym h (by rw [← hp.ev]; exact hm))
  have hnt := not_all_true h hb (by rw [natOfBits_int2bits]; exact hN) hm
  refine ⟨?_, ?_, hp.value, hp.fnm, hm.nd, ?_, ?_⟩
  · intro e
    apply hnt
    rw [← hp.eqn, e]; rfl
  · rw [hp.eqn]
    intro c hc
    have := Proper.residual h.proper root'.evaluatedVars c hc
    exact ⟨fun e => hne (e ▸ hc), this⟩
  · intro k hk
    rcases (hm.keys k).1 hk with ⟨v, hv, rfl⟩ | ⟨_, rfl | rfl⟩
    · have := h.form.fresh v hv; omega
    · omega
    · omega
  · rw [hp.eqn]; exact SameClauses.refl _

end NDP
