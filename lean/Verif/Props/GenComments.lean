import Verif.Props.FactGen
/-
  C95: the generator of multiplier formulas (`tools/sabry_cnf_gen.hs`) as a program: its arguments, and what its comments say.
-/
namespace NDP.Gen
open NDP NDP.Spec

/-! ### Model -/

/-- `sabry_cnf_gen.hs` 684-687. -/
def parseAdder (s : Str) : Option AdderName :=
  if s = AdderName.nbit.str then some .nbit else if s = AdderName.fast.str then some .fast else none

/-- `sabry_cnf_gen.hs` 688-693. -/
def parseMult (s : Str) : Option MultName :=
  if s = MultName.carrySave.str then some .carrySave
  else if s = MultName.wallace.str then some .wallace
  else if s = MultName.recursive.str then some .recursive else none

/-- `sabry_cnf_gen.hs` 674-712 (`main`).  `rd` is Haskell's `read` at type `Int` or `Integer` (`none`: no parse).  `none`: the program ends with an error; what it has printed by
then (some of the comments) is not modelled. -/
def genMain (rd : Str → Option Int) : List Str → Option Str
  | [n, a, m] =>
    match rd n with
    | none => none
    | some n => if 1 < n then
        match parseAdder a, parseMult m with
        | some a, some m => genText a m n.toNat
        | _, _ => none
      else none
  | _ => none

/-! ### Specification -/

/-- The adders and multipliers of the usage message. -/
def adderNames : List Str := ["n-bit".toList, "fast".toList]
def multNames : List Str := ["carry-save".toList, "wallace".toList, "recursive".toList]

/-- The number written by these literals, the most significant first. -/
def msbVal (α : Assign) (vs : List Int) : Nat := vs.foldl (fun n v => 2 * n + if litVal α v then 1 else 0) 0

/-- A list as printed. -/
def listed (ws : List Str) : Str := '[' :: joinWith [','] ws ++ [']']

/-- The printed text says: a circuit for `N`, with these output and input literals, and the clauses `F` over the variables `1 … n`. -/
def Announces (text : Str) (adder mult : Str) (N : Nat) (out first second : List Int) (n : Nat) (F : Cnf) : Prop :=
  ∃ bits : List Bool, bits.foldl (fun k b => 2 * k + if b then 1 else 0) 0 = N ∧
    splitOn '\n' text =
      ["c Problem generated from ".toList ++ mult ++ "[".toList ++ adder ++ "] multiplication circuit".toList, "c by Paul Purdom and Amr Sabry".toList, "c".toList,
       "c Circuit for product = ".toList ++ natStr N ++ " ".toList ++ listed (bits.map fun b => if b then "True".toList else "False".toList),
       "c Variables for output [msb,...,lsb]: ".toList ++ listed (out.map intStr),
       "c Variables for first input [msb,...,lsb]: ".toList ++ listed (first.map intStr),
       "c Variables for second input [msb,...,lsb]: ".toList ++ listed (second.map intStr), "c".toList, "c".toList,
       "p cnf ".toList ++ natStr n ++ " ".toList ++ natStr F.length] ++ F.map (fun c => joinWith [' '] ((c ++ [0]).map intStr)) ++ [[]]

/-! ### Proofs -/

theorem parseAdder_iff (s : Str) (a : AdderName) : parseAdder s = some a ↔ s = a.str := by
  unfold parseAdder
  constructor
  · intro h
    split at h
    · obtain rfl := Option.some.inj h; assumption
    split at h
    · obtain rfl := Option.some.inj h; assumption
    · simp at h
  · rintro rfl
    cases a <;> decide

theorem parseMult_iff (s : Str) (m : MultName) : parseMult s = some m ↔ s = m.str := by
  unfold parseMult
  constructor
  · intro h
    split at h
    · obtain rfl := Option.some.inj h; assumption
    split at h
    · obtain rfl := Option.some.inj h; assumption
    split at h
    · obtain rfl := Option.some.inj h; assumption
    · simp at h
  · rintro rfl
    cases m <;> decide

theorem mem_adderNames (s : Str) : s ∈ adderNames ↔ ∃ a : AdderName, s = a.str := by
  unfold adderNames
  constructor
  · intro h
    simp only [List.mem_cons, List.not_mem_nil, or_false] at h
    rcases h with rfl | rfl
    · exact ⟨.nbit, rfl⟩
    · exact ⟨.fast, rfl⟩
  · rintro ⟨a, rfl⟩
    cases a <;> decide

theorem mem_multNames (s : Str) : s ∈ multNames ↔ ∃ m : MultName, s = m.str := by
  unfold multNames
  constructor
  · intro h
    simp only [List.mem_cons, List.not_mem_nil, or_false] at h
    rcases h with rfl | rfl | rfl
    · exact ⟨.carrySave, rfl⟩
    · exact ⟨.wallace, rfl⟩
    · exact ⟨.recursive, rfl⟩
  · rintro ⟨a, rfl⟩
    cases a <;> decide

theorem foldl_bits (bs : List Bool) : bs.reverse.foldl (fun k b => 2 * k + if b then 1 else 0) 0 = natOfBits bs := by
  rw [List.foldl_reverse]
  induction bs with
  | nil => rfl
  | cons b bs ih => rw [List.foldr_cons, ih, natOfBits]; omega

theorem msbVal_bits {α : Assign} {bs : List Bit} (h : ∀ b ∈ bs, 0 < bvar b) : msbVal α (bs.reverse.map bitInt) = bitsVal α bs := by
  unfold msbVal bitsVal
  rw [← foldl_bits, ← List.map_reverse, List.foldl_map, List.foldl_map]
  have h : ∀ b ∈ bs.reverse, 0 < bvar b := fun b hb => h b (List.mem_reverse.1 hb)
  generalize bs.reverse = l at h
  have key : ∀ z : Nat, l.foldl (fun x y => 2 * x + if litVal α (bitInt y) = true then 1 else 0) z = l.foldl (fun x y => 2 * x + if val α y = true then 1 else 0) z := by
    induction l with
    | nil => exact fun _ => rfl
    | cons b l ih =>
      intro z
      rw [List.foldl_cons, List.foldl_cons, litVal_bitInt (h b (by simp)), ih (fun b hb => h b (by simp [hb]))]
  exact key 0

theorem showBits_listed {bs : List Bit} (h : ∀ b ∈ bs, 0 < bvar b) : showBits bs = listed ((bs.map bitInt).map intStr) := by
  have e : bs.map showBit = (bs.map bitInt).map intStr := by
    rw [List.map_map]
    apply List.map_congr_left
    intro b hb
    exact showBit_eq (h b hb)
  unfold showBits listed
  rw [e]; rfl

theorem showBits_consts (bs : List Bool) : showBits (bs.map Bit.const) = listed (bs.map fun b => if b then "True".toList else "False".toList) := by
  have e : (bs.map Bit.const).map showBit = bs.map fun b => if b then "True".toList else "False".toList := by
    rw [List.map_map]
    apply List.map_congr_left
    intro b _
    cases b <;> rfl
  unfold showBits listed
  rw [e]; rfl

theorem inputs_pos (n k : Nat) (hn : 0 < n) : ∀ b ∈ inputs n k, 0 < bvar b := by
  intro b hb
  obtain ⟨i, _, rfl⟩ := List.mem_map.1 hb
  show 0 < n + i
  omega

theorem nl_listed_ints (l : List Int) : '\n' ∉ listed (l.map intStr) := by
  intro h
  unfold listed at h
  simp only [List.cons_append, List.mem_cons, List.mem_append, List.not_mem_nil, or_false] at h
  rcases h with h | h | h
  · revert h; decide
  · rcases mem_joinWith h with h | ⟨w, hw, h⟩
    · revert h; decide
    · obtain ⟨b, _, rfl⟩ := List.mem_map.1 hw
      exact not_mem_intStr (by decide) (by decide) h
  · revert h; decide

theorem nl_listed_bools (l : List Bool) : '\n' ∉ listed (l.map fun b => if b then "True".toList else "False".toList) := by
  rw [← showBits_consts]; exact nl_showBits _

/-- The printed text as lines. -/
theorem genText_announces {a : AdderName} {m : MultName} {N : Nat} (hN : 1 < N) {as bs cs : List Bit} {next : Nat} {cls : List BCl}
    (h : symbolic (multCircuit (m.mult a.adder) (int2bits N)) 1 = some (((as, bs), cs), next, cls)) (hl : ∀ c ∈ cls, ∀ b ∈ c, 0 < bvar b) (hs : ∀ c ∈ cls, c ≠ [])
    (ha : ∀ b ∈ as, 0 < bvar b) (hb : ∀ b ∈ bs, 0 < bvar b) (hc : ∀ b ∈ cs, 0 < bvar b) :
    ∃ text, genText a m N = some text ∧
      Announces text a.str m.str N (cs.reverse.map bitInt) (as.reverse.map bitInt) (bs.reverse.map bitInt) (next - 1) (cls.map fun c => c.map bitInt) := by
  have e : cls.map showCl = (cls.map fun c => c.map bitInt).map fun c => joinWith [' '] ((c ++ [0]).map intStr) := by
    rw [List.map_map]
    apply List.map_congr_left
    intro c hc
    exact showCl_eq (hs c hc) (hl c hc)
  have hn : '\n' ∉ m.str ∧ '\n' ∉ a.str := by cases m <;> cases a <;> decide
  have hr : ∀ {l : List Bit}, (∀ b ∈ l, 0 < bvar b) → ∀ b ∈ l.reverse, 0 < bvar b := fun h b hb => h b (List.mem_reverse.1 hb)
  unfold genText genLines
  rw [if_pos hN, h]
  simp only [Option.map_some]
  refine ⟨_, rfl, (int2bits N).reverse, by rw [foldl_bits, natOfBits_int2bits], ?_⟩
  rw [e, showBits_listed (hr ha), showBits_listed (hr hb), showBits_listed (hr hc), showBits_consts, ← List.length_map (as := cls) (fun c => c.map bitInt)]
  apply splitOn_lines
  intro l hl
  rcases List.mem_append.1 hl with hl | hl
  · simp only [List.mem_cons, List.not_mem_nil, or_false] at hl
    rcases hl with rfl | rfl | rfl | rfl | rfl | rfl | rfl | rfl | rfl | rfl
    · exact nl_append (nl_append (nl_append (nl_append (by decide) hn.1) (by decide)) hn.2) (by decide)
    · decide
    · decide
    · exact nl_append (nl_append (nl_append (by decide) (nl_natStr N)) (by decide)) (nl_listed_bools _)
    · exact nl_append (by decide) (nl_listed_ints _)
    · exact nl_append (by decide) (nl_listed_ints _)
    · exact nl_append (by decide) (nl_listed_ints _)
    · decide
    · decide
    · exact nl_append (nl_append (nl_append (by decide) (nl_natStr _)) (by decide)) (nl_natStr _)
  · obtain ⟨c, _, rfl⟩ := List.mem_map.1 hl
    intro h
    rcases mem_joinWith h with h | ⟨w, hw, h⟩
    · revert h; decide
    · obtain ⟨b, _, rfl⟩ := List.mem_map.1 hw
      exact not_mem_intStr (by decide) (by decide) h

/-- **C95.**  The comments and the clauses the generator prints for `N ≥ 4` fit together: a satisfying assignment, read through the three comments, gives two factors and the product
`N`; every factorization of the announced sizes is read from some satisfying assignment; the variables are those announced. -/
theorem C95_comments (rd : Str → Option Int) {s adder mult : Str} (ha : adder ∈ adderNames) (hm : mult ∈ multNames) {N : Nat} (hr : rd s = some (N : Int)) (hN : 4 ≤ N) :
    ∃ text out first second n F, genMain rd [s, adder, mult] = some text ∧ Announces text adder mult N out first second n F ∧
      (∀ c ∈ F, ∀ l ∈ c, l ≠ 0 ∧ l.natAbs ≤ n) ∧
      (∀ α, Sat α F → msbVal α first * msbVal α second = N ∧ msbVal α out = N) ∧
      ∀ x y, x < 2 ^ first.length → y < 2 ^ second.length → x * y = N → ∃ α, Sat α F ∧ msbVal α first = x ∧ msbVal α second = y := by
  obtain ⟨a, rfl⟩ := (mem_adderNames _).1 ha
  obtain ⟨m, rfl⟩ := (mem_multNames _).1 hm
  have hlog : 2 ≤ Nat.log2 N := (Nat.le_log2 (by omega)).2 (by omega)
  have hlen := int2bits_length (n := N) (by omega)
  obtain ⟨f1, e1⟩ : ∃ f1, f1 = Nat.log2 N := ⟨_, rfl⟩
  obtain ⟨f2, e2⟩ : ∃ f2, f2 = (f1 + 2) / 2 := ⟨_, rfl⟩
  obtain ⟨out, n', cls, h1, h2⟩ := mult_cnf a m (f1 := f1) (f2 := f2) (by omega) (by omega)
  have hsym := symbolic_multCircuit (m := m.mult a.adder) (out := int2bits N) (cs := out) (next := n') (cls := cls) (by
    rw [hlen, ← h1, Nat.add_sub_cancel, ← e1, show 1 + f1 = f1 + 1 by omega,
      show f1 + 1 + (f1 + 1 + 1) / 2 = f1 + (f1 + 2) / 2 + 1 by omega, ← e2])
  rw [hlen, Nat.add_sub_cancel, ← e1, show 1 + f1 = f1 + 1 by omega, show (f1 + 1 + 1) / 2 = f2 by omega] at hsym
  have hlits : ∀ c ∈ cls ++ assertClauses (out.filter keepBitVar) (int2bits N), ∀ b ∈ c, 0 < bvar b ∧ bvar b < n' := by
    intro c hc
    rcases List.mem_append.1 hc with hc | hc
    · exact h2.lits c hc
    · exact assertClauses_lits (keep_lits h2.ok) _ c hc
  have hszb : ∀ c ∈ cls ++ assertClauses (out.filter keepBitVar) (int2bits N), c ≠ [] := by
    intro c hc
    rcases List.mem_append.1 hc with hc | hc
    · exact (h2.size c hc).1
    · exact (assertClauses_size _ _ c hc).1
  have hout : ∀ b ∈ out.filter keepBitVar, 0 < bvar b := fun b hb => (keep_lits h2.ok b hb).1
  have hsat := fun β => (sat_map (ρ := β) fun c hc b hb => (hlits c hc b hb).1).trans
    (multCircuit_sat h2 (by omega) (by omega) (out := int2bits N) (by omega) β)
  have hmain : genMain rd [s, a.str, m.str] = genText a m N := by
    simp only [genMain, hr, (parseAdder_iff _ a).2 rfl, (parseMult_iff _ m).2 rfl, Int.toNat_natCast]
    rw [if_pos (by omega)]
  obtain ⟨text, htext, hann⟩ := genText_announces (by omega) hsym (fun c hc b hb => (hlits c hc b hb).1) hszb (inputs_pos _ _ (by omega)) (inputs_pos _ _ (by omega)) hout
  refine ⟨text, _, _, _, _, _, hmain.trans htext, hann, ?_, ?_, ?_⟩
  · intro c hc l hl
    obtain ⟨d, hd, rfl⟩ := List.mem_map.1 hc
    obtain ⟨b, hb, rfl⟩ := List.mem_map.1 hl
    have := hlits d hd b hb
    cases b with
    | const => simp [bvar] at this
    | var v => simp [bitInt, bvar] at this ⊢; omega
    | nvar v => simp [bitInt, bvar] at this ⊢; omega
  · intro α hα
    obtain ⟨h3, h4⟩ := (hsat α).1 hα
    rw [msbVal_bits (inputs_pos _ _ (by omega)), msbVal_bits (inputs_pos _ _ (by omega)), msbVal_bits hout, h2.filter_val (by omega) (by omega) h3, h4, natOfBits_int2bits]
    exact ⟨rfl, rfl⟩
  · intro x y hx hy hxy
    have hx : x < 2 ^ f1 := by simpa [inputs] using hx
    have hy : y < 2 ^ f2 := by simpa [inputs] using hy
    obtain ⟨β, hb, hs⟩ := h2.complete (inpAssign f1 x y)
    have b1 := bitsVal_inp hx (ρ := β) fun v hv => hb v (by omega)
    have b2 := bitsVal_inp2 hy (ρ := β) fun v hv => hb v (by omega)
    refine ⟨β, (hsat β).2 ⟨hs, by rw [b1, b2, natOfBits_int2bits, hxy]⟩, ?_, ?_⟩
    · rw [msbVal_bits (inputs_pos _ _ (by omega)), b1]
    · rw [msbVal_bits (inputs_pos _ _ (by omega)), b2]

/-- **C95** (arguments)  Nothing else than a number from 2 on and two of these names is accepted. -/
theorem C95_arguments (rd : Str → Option Int) {args : List Str} {text : Str} (h : genMain rd args = some text) :
    ∃ s adder mult n, args = [s, adder, mult] ∧ adder ∈ adderNames ∧ mult ∈ multNames ∧ rd s = some n ∧ 2 ≤ n := by
  unfold genMain at h
  split at h
  · split at h
    · simp at h
    · rename_i s a m _ n hr
      split at h
      · split at h
        · rename_i hn _ _ a' m' ha hm
          exact ⟨s, a, m, n, rfl, (mem_adderNames _).2 ⟨a', (parseAdder_iff _ _).1 ha⟩, (mem_multNames _).2 ⟨m', (parseMult_iff _ _).1 hm⟩, hr, by omega⟩
        · simp at h
      · simp at h
  · simp at h

/-- **C95, refuted for 2 and 3.**  These primes are accepted, and the formula printed is satisfiable: the factors have one bit each, and only as many bits of the number are demanded
as the product of one-bit numbers has. -/
theorem C95_small_refuted (rd : Str → Option Int) {s adder mult : Str} (ha : adder ∈ adderNames) (hm : mult ∈ multNames) {N : Nat} (hr : rd s = some (N : Int)) (hN : N = 2 ∨ N = 3) :
    ∃ text out first second n F, genMain rd [s, adder, mult] = some text ∧ Announces text adder mult N out first second n F ∧ Satisfiable F ∧
      ∀ α, msbVal α first * msbVal α second ≠ N := by
  obtain ⟨a, rfl⟩ := (mem_adderNames _).1 ha
  obtain ⟨m, rfl⟩ := (mem_multNames _).1 hm
  have hmain : genMain rd [s, a.str, m.str] = genText a m N := by
    simp only [genMain, hr, (parseAdder_iff _ a).2 rfl, (parseMult_iff _ m).2 rfl, Int.toNat_natCast]
    rw [if_pos (by omega)]
  have key : ∃ v : Bool, symbolic (multCircuit (m.mult a.adder) (int2bits N)) 1 =
      some ((([.var 1], [.var 2]), [.var 3]), 4,
        [[.var 1, .var 2, .nvar 3], [.var 1, .nvar 2, .nvar 3], [.nvar 1, .var 2, .nvar 3], [.nvar 1, .nvar 2, .var 3], [if v then .var 3 else .nvar 3]]) := by
    rcases hN with rfl | rfl
    · exact ⟨false, by cases a <;> cases m <;> rfl⟩
    · exact ⟨true, by cases a <;> cases m <;> rfl⟩
  obtain ⟨v, hsym⟩ := key
  obtain ⟨text, htext, hann⟩ := genText_announces (by omega) hsym (by cases v <;> decide) (by cases v <;> decide) (by decide) (by decide) (by decide)
  refine ⟨text, _, _, _, _, _, hmain.trans htext, hann, ?_, ?_⟩
  · cases v
    · exact ⟨fun _ => false, by unfold Sat; decide⟩
    · exact ⟨fun _ => true, by unfold Sat; decide⟩
  · intro α
    have h1 : msbVal α [(1 : Int)] ≤ 1 := by simp only [msbVal, List.foldl_cons, List.foldl_nil]; split <;> omega
    have h2 : msbVal α [(2 : Int)] ≤ 1 := by simp only [msbVal, List.foldl_cons, List.foldl_nil]; split <;> omega
    have h3 : msbVal α [(1 : Int)] * msbVal α [(2 : Int)] ≤ 1 * 1 := Nat.mul_le_mul h1 h2
    have e : msbVal α ([Bit.var 1].reverse.map bitInt) * msbVal α ([Bit.var 2].reverse.map bitInt) = msbVal α [(1 : Int)] * msbVal α [(2 : Int)] := rfl
    rw [e]
    omega

/-- The text for `6 n-bit wallace` begins with these lines; and the hypotheses can be met. -/
example : (genMain parseInt ["6".toList, "n-bit".toList, "wallace".toList]).map (fun t => ((splitOn '\n' t).drop 3).take 7) =
    some ["c Circuit for product = 6 [True,True,False]".toList, "c Variables for output [msb,...,lsb]: [11,12,10,5]".toList,
      "c Variables for first input [msb,...,lsb]: [2,1]".toList, "c Variables for second input [msb,...,lsb]: [4,3]".toList, "c".toList, "c".toList,
      "p cnf 12 36".toList] := by rfl

example : "fast".toList ∈ adderNames ∧ "recursive".toList ∈ multNames ∧ parseInt "15".toList = some ((15 : Nat) : Int) ∧ 3 * 5 = 15 ∧ (3 : Nat) < 2 ^ Nat.log2 15 ∧
    genMain parseInt ["1".toList, "fast".toList, "wallace".toList] = none ∧ genMain parseInt ["9".toList, "slow".toList, "wallace".toList] = none := by decide

end NDP.Gen
