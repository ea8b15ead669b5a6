import Verif.Props.Circuit
import Verif.Proofs.GenText
/- The set read from a generated multiplier formula. -/
namespace NDP.Gen
open Spec

/-- The multipliers whose formulas the factorizer can read: not the recursive one, unless the number is so small that the
recursive one is the Wallace multiplier (below 2^21) or that it splits only the first factor, in two parts (an even number of
binary digits, below 2^40). -/
def PlainMult (m : MultName) (N : Nat) : Prop := m ≠ .recursive ∨ N < 2 ^ 21 ∨ (Nat.log2 N % 2 = 1 ∧ N < 2 ^ 40)

theorem wallace_first (ad : Adder) (x y : Bit) (as bs : List Bit) : ∃ k, wallace ad (x :: as) (y :: bs) = .and2 x y k :=
  ⟨_, rfl⟩

theorem carrySave_first (ad : Adder) (x y : Bit) (as bs : List Bit) : ∃ k, carrySave ad (x :: as) (y :: bs) = .and2 x y k :=
  ⟨_, rfl⟩

theorem recursive_small (ad : Adder) {xs ys : List Bit} (h : max xs.length ys.length ≤ bound) :
    recursive bound ad xs ys = wallace ad xs ys := by
  unfold recursive recursiveN
  simp only [ge_iff_le, h, if_true]

theorem first_gate {m : MultName} (hm : m ≠ .recursive) (a : AdderName) (x y : Bit) (as bs : List Bit) :
    ∃ k, m.mult a.adder (x :: as) (y :: bs) = .and2 x y k := by
  cases m with
  | carrySave => exact carrySave_first _ _ _ _ _
  | wallace => exact wallace_first _ _ _ _ _
  | recursive => exact absurd rfl hm

theorem symbolic_first {α : Type} {c : Circ α} {p q n : Nat} {k : Bit → Circ α} (hc : c = .and2 (.var p) (.var q) k)
    {r : α} {n' : Nat} {cls : List BCl} (h : symbolic c n = some (r, n', cls)) :
    ∃ rest, cls = [.var p, .var q, .nvar n] :: rest := by
  subst hc
  simp only [symbolic, symAnd, Option.map_eq_some_iff] at h
  obtain ⟨r', _, he⟩ := h
  refine ⟨(andCls n (.var p) (.var q)).tail ++ r'.2.2, ?_⟩
  have : cls = andCls n (.var p) (.var q) ++ r'.2.2 := by
    have := congrArg (fun z => z.2.2) he
    exact this.symm
  rw [this]; rfl

theorem plain_cnf_aux (a : AdderName) {m : MultName} (hm : m ≠ .recursive) {f1 f2 : Nat} (h1 : 1 ≤ f1) (h2 : 1 ≤ f2) :
    ∃ out n' cls, symbolic (m.mult a.adder (inputs 1 f1) (inputs (f1 + 1) f2)) (f1 + f2 + 1) = some (out, n', cls) ∧
      MultCnf (inputs 1 f1) (inputs (f1 + 1) f2) (f1 + f2 + 1) false true out n' cls ∧
      ∃ rest, cls = [.var 1, .var (f1 + 1), .nvar (f1 + f2 + 1)] :: rest := by
  obtain ⟨out, n', cls, h3, h4⟩ := mult_cnf_plain a hm h1 h2
  refine ⟨out, n', cls, h3, h4, ?_⟩
  have e1 : inputs 1 f1 = .var 1 :: inputs 2 (f1 - 1) := by
    conv_lhs => rw [show f1 = f1 - 1 + 1 by omega]
    exact inputs_succ _ _
  have e2 : inputs (f1 + 1) f2 = .var (f1 + 1) :: inputs (f1 + 2) (f2 - 1) := by
    conv_lhs => rw [show f2 = f2 - 1 + 1 by omega]
    exact inputs_succ _ _
  obtain ⟨k, hk⟩ := first_gate hm a (.var 1) (.var (f1 + 1)) (inputs 2 (f1 - 1)) (inputs (f1 + 2) (f2 - 1))
  exact symbolic_first hk (by rw [← e1, ← e2]; exact h3)

/-- The recursive multiplier, when it splits only the first factor and both parts are small. -/
theorem recursive_split (ad : Adder) {xs ys : List Bit} {h : Nat} (hb : bound < max xs.length ys.length)
    (hh : h = (max xs.length ys.length + 1) / 2) (hy : ys.length ≤ h) (hh2 : h ≤ bound) :
    recursive bound ad xs ys = (do
      let p3 ← wallace ad ((padTo (max xs.length ys.length) xs).take h) ((padTo (max xs.length ys.length) ys).take h)
      let p2 ← wallace ad ((padTo (max xs.length ys.length) xs).drop h) ((padTo (max xs.length ys.length) ys).take h)
      ad (shift h p2) p3) := by
  have hm : max xs.length ys.length = (max xs.length ys.length - 1) + 1 := by omega
  unfold recursive
  rw [recursiveN]
  simp only [ge_iff_le]
  rw [if_neg (by omega), ← hh, if_pos hy]
  conv_lhs => rw [hm]
  rw [← hm]
  have w : ∀ (f : Nat) (as bs : List Bit), max as.length bs.length ≤ bound → recursiveN bound ad (f + 1) as bs = wallace ad as bs := by
    intro f as bs hl
    unfold recursiveN
    simp only [ge_iff_le, hl, if_true]
  have l1 := length_padTo (max xs.length ys.length) xs
  have l2 := length_padTo (max xs.length ys.length) ys
  have e1 : recursiveN bound ad (max xs.length ys.length) ((padTo (max xs.length ys.length) xs).take h)
      ((padTo (max xs.length ys.length) ys).take h) =
      wallace ad ((padTo (max xs.length ys.length) xs).take h) ((padTo (max xs.length ys.length) ys).take h) := by
    conv_lhs => rw [show recursiveN bound ad (max xs.length ys.length) = recursiveN bound ad ((max xs.length ys.length - 1) + 1) by rw [← hm]]
    exact w _ _ _ (by simp only [List.length_take]; omega)
  have e2 : recursiveN bound ad (max xs.length ys.length) ((padTo (max xs.length ys.length) xs).drop h)
      ((padTo (max xs.length ys.length) ys).take h) =
      wallace ad ((padTo (max xs.length ys.length) xs).drop h) ((padTo (max xs.length ys.length) ys).take h) := by
    conv_lhs => rw [show recursiveN bound ad (max xs.length ys.length) = recursiveN bound ad ((max xs.length ys.length - 1) + 1) by rw [← hm]]
    exact w _ _ _ (by simp only [List.length_take, List.length_drop]; omega)
  rw [e1, e2]

theorem run_recursive_split {adder : Adder} (had : AdderOk adder) {md : Md} {pl : Bool} {n : Nat} {ρ : Assign} {xs ys : List Bit}
    {vx vy : List Bool} (hn : 0 < n) (hx : HasL md pl n ρ xs vx) (hy : HasL md pl n ρ ys vy) {h : Nat}
    (hb : bound < max xs.length ys.length) (hh : h = (max xs.length ys.length + 1) / 2) (hyh : ys.length ≤ h) (hh2 : h ≤ bound) :
    Run md (recursive bound adder xs ys) n ρ fun n' ρ' r => ∃ vr, HasL md pl n' ρ' r vr ∧
      natOfBits vr = natOfBits vx * natOfBits vy := by
  rw [recursive_split adder hb hh hyh hh2]
  set m := max xs.length ys.length with hm
  have lx := hx.length
  have ly := hy.length
  have hex := has_padTo m hx
  have hey := has_padTo m hy
  have ex : natOfBits (vx.take m ++ List.replicate (m - vx.length) false) = natOfBits vx := nat_padTo (by omega)
  have ey : natOfBits (vy.take m ++ List.replicate (m - vy.length) false) = natOfBits vy := nat_padTo (by omega)
  have l1 : (vx.take m ++ List.replicate (m - vx.length) false).length = m := by simp; omega
  have l2 : (vy.take m ++ List.replicate (m - vy.length) false).length = m := by simp; omega
  generalize (vx.take m ++ List.replicate (m - vx.length) false) = wx at hex ex l1
  have eyt : natOfBits ((vy.take m ++ List.replicate (m - vy.length) false).take h) = natOfBits vy := by
    rw [take_small (by omega) ?_, ey]
    rw [ey]
    exact Nat.lt_of_lt_of_le (nat_lt vy) (Nat.pow_le_pow_right (by omega) (by omega))
  generalize (vy.take m ++ List.replicate (m - vy.length) false) = wy at hey ey l2 eyt
  refine Run.bind (run_wallace had hn (List.forall₂_take h hex) (List.forall₂_take h hey)) fun n1 ρ1 p3 e1 h3 => ?_
  have q1 := Nat.lt_of_lt_of_le hn e1.le
  refine Run.bind (run_wallace had q1 (HasL.ext e1 (List.forall₂_drop h hex)) (HasL.ext e1 (List.forall₂_take h hey)))
    fun n2 ρ2 p2 e2 h2 => ?_
  have q2 := Nat.lt_of_lt_of_le q1 e2.le
  obtain ⟨v3, h3, h3'⟩ := h3
  obtain ⟨v2, h2, h2'⟩ := h2
  refine Run.mono (had q2 (has_shift h h2) (HasL.ext e2 h3) (Or.inl (shift_ne (by simp only [bound] at *; omega)))) ?_
  rintro n3 ρ3 r _ ⟨vr, k1, k2, _⟩
  refine ⟨vr, k1, ?_⟩
  rw [k2, nat_shift, h2', h3', eyt, ← ex, split_val (vs := wx) (k := h) (by omega)]
  ring

theorem split_cnf (a : AdderName) {k : Nat} (h1 : 11 ≤ k) (h2 : k ≤ 20) :
    ∃ out n' cls, symbolic (MultName.recursive.mult a.adder (inputs 1 (2 * k - 1)) (inputs (2 * k) k)) (3 * k) = some (out, n', cls) ∧
      MultCnf (inputs 1 (2 * k - 1)) (inputs (2 * k) k) (3 * k) false true out n' cls ∧
      ∃ rest, cls = [.var 1, .var (2 * k), .nvar (3 * k)] :: rest := by
  have o1 : ∀ b ∈ inputs 1 (2 * k - 1), Ok ⟨false, false⟩ (3 * k) b ∧ Pl b := by
    intro b hb
    obtain ⟨i, hi, rfl⟩ := List.mem_map.1 hb
    have := List.mem_range.1 hi
    exact ⟨⟨rfl, by omega, by omega⟩, trivial⟩
  have o2 : ∀ b ∈ inputs (2 * k) k, Ok ⟨false, false⟩ (3 * k) b ∧ Pl b := by
    intro b hb
    obtain ⟨i, hi, rfl⟩ := List.mem_map.1 hb
    have := List.mem_range.1 hi
    exact ⟨⟨rfl, by omega, by omega⟩, trivial⟩
  have l1 : (inputs 1 (2 * k - 1)).length = 2 * k - 1 := by simp [inputs]
  have l2 : (inputs (2 * k) k).length = k := by simp [inputs]
  have hm : max (inputs 1 (2 * k - 1)).length (inputs (2 * k) k).length = 2 * k - 1 := by omega
  have c1 : bound < max (inputs 1 (2 * k - 1)).length (inputs (2 * k) k).length := by simp only [bound]; omega
  have c2 : k = (max (inputs 1 (2 * k - 1)).length (inputs (2 * k) k).length + 1) / 2 := by omega
  obtain ⟨out, n', cls, h3, h4⟩ := multCnf_of (asr := false) (pl := true) (m := MultName.recursive.mult a.adder)
    (as := inputs 1 (2 * k - 1)) (bs := inputs (2 * k) k) (n := 3 * k) (by omega) (fun ρ => by
      have i1 := hasL_of_ok (pl := true) (ρ := ρ) (fun b hb => (o1 b hb).1) (fun _ b hb => (o1 b hb).2)
      have i2 := hasL_of_ok (pl := true) (ρ := ρ) (fun b hb => (o2 b hb).1) (fun _ b hb => (o2 b hb).2)
      exact run_recursive_split (adder_ok a) (by omega) i1 i2 c1 c2 (by omega) (by simp only [bound]; omega))
    (fun b hb => (o1 b hb).1) (fun b hb => (o2 b hb).1)
  refine ⟨out, n', cls, h3, h4, ?_⟩
  have e1 : inputs 1 (2 * k - 1) = .var 1 :: inputs 2 (2 * k - 2) := by
    conv_lhs => rw [show 2 * k - 1 = 2 * k - 2 + 1 by omega]
    exact inputs_succ _ _
  have e2 : inputs (2 * k) k = .var (2 * k) :: inputs (2 * k + 1) (k - 1) := by
    conv_lhs => rw [show inputs (2 * k) k = inputs (2 * k) (k - 1 + 1) by rw [show k - 1 + 1 = k by omega]]
    exact inputs_succ _ _
  have hs := recursive_split a.adder (h := k) c1 c2 (by omega) (by simp only [bound]; omega)
  rw [hm] at hs
  have t : ∀ (b : Bit) (l : List Bit) (n j : Nat), (padTo (n + 1) (b :: l)).take (j + 1) = b :: (padTo n l).take j := by
    intro b l n j
    simp [padTo]
  have hx : (padTo (2 * k - 1) (inputs 1 (2 * k - 1))).take k = .var 1 :: (padTo (2 * k - 2) (inputs 2 (2 * k - 2))).take (k - 1) := by
    rw [e1, ← t, show 2 * k - 2 + 1 = 2 * k - 1 by omega, show k - 1 + 1 = k by omega]
  have hy : (padTo (2 * k - 1) (inputs (2 * k) k)).take k =
      .var (2 * k) :: (padTo (2 * k - 2) (inputs (2 * k + 1) (k - 1))).take (k - 1) := by
    rw [e2, ← t, show 2 * k - 2 + 1 = 2 * k - 1 by omega, show k - 1 + 1 = k by omega]
  obtain ⟨c, hc⟩ := wallace_first a.adder (.var 1) (.var (2 * k)) ((padTo (2 * k - 2) (inputs 2 (2 * k - 2))).take (k - 1))
    ((padTo (2 * k - 2) (inputs (2 * k + 1) (k - 1))).take (k - 1))
  rw [← hx, ← hy] at hc
  rw [hc] at hs
  exact symbolic_first hs h3

/-- The formula of a plain multiplier, starting with the gate of the two lowest input bits. -/
theorem plain_cnf (a : AdderName) {m : MultName} {N : Nat} (hm : PlainMult m N) (hN : 4 ≤ N) {f1 f2 : Nat}
    (e1 : f1 = Nat.log2 N) (e2 : f2 = (f1 + 2) / 2) :
    ∃ out n' cls, symbolic (m.mult a.adder (inputs 1 f1) (inputs (f1 + 1) f2)) (f1 + f2 + 1) = some (out, n', cls) ∧
      MultCnf (inputs 1 f1) (inputs (f1 + 1) f2) (f1 + f2 + 1) false true out n' cls ∧
      ∃ rest, cls = [.var 1, .var (f1 + 1), .nvar (f1 + f2 + 1)] :: rest := by
  have hlog : 2 ≤ Nat.log2 N := (Nat.le_log2 (by omega)).2 (by omega)
  by_cases hr : m = .recursive
  · subst hr
    by_cases hl : Nat.log2 N < 21
    · have : MultName.recursive.mult a.adder (inputs 1 f1) (inputs (f1 + 1) f2) =
          MultName.wallace.mult a.adder (inputs 1 f1) (inputs (f1 + 1) f2) := by
        apply recursive_small
        simp only [inputs, List.length_map, List.length_range, bound]
        omega
      rw [this]
      exact plain_cnf_aux a (by decide) (by omega) (by omega)
    · rcases hm.resolve_left fun h => h rfl with hs | ⟨ho, hs⟩
      · exact absurd ((Nat.log2_lt (by omega)).2 hs) hl
      · have hs := (Nat.log2_lt (by omega)).2 hs
        obtain ⟨k, hk⟩ : ∃ k, Nat.log2 N = 2 * k - 1 ∧ 11 ≤ k ∧ k ≤ 20 := ⟨(Nat.log2 N + 1) / 2, by omega, by omega, by omega⟩
        have := split_cnf a hk.2.1 hk.2.2
        rw [show f1 + f2 + 1 = 3 * k by omega, show f1 + 1 = 2 * k by omega, show f1 = 2 * k - 1 by omega, show f2 = k by omega]
        exact this
  · exact plain_cnf_aux a hr (by omega) (by omega)

/-! ### the clauses as read -/

/-- What reading makes of the clauses: tautologies dropped, literals once and in ascending order. -/
def readCls (F : Cnf) : Cnf := (F.filter fun c => decide (¬ Tautology c)).map fun c => sortAbs (dedup c)

theorem readCls_append (F G : Cnf) : readCls (F ++ G) = readCls F ++ readCls G := by simp [readCls]

theorem sat_readCls {F : Cnf} (h0 : ∀ c ∈ F, (0 : Int) ∉ c) (α : Assign) : Sat α (readCls F) ↔ Sat α F := by
  constructor
  · intro h c hc
    by_cases ht : Tautology c
    · exact sat_of_tautology (h0 c hc) ht α
    · obtain ⟨l, hl, hv⟩ := h (sortAbs (dedup c)) (List.mem_map.2 ⟨c, List.mem_filter.2 ⟨hc, by simpa using ht⟩, rfl⟩)
      exact ⟨l, by simpa using hl, hv⟩
  · intro h c hc
    obtain ⟨d, hd, rfl⟩ := List.mem_map.1 hc
    obtain ⟨l, hl, hv⟩ := h d (List.mem_filter.1 hd).1
    exact ⟨l, by simpa using hl, hv⟩

theorem readCls_mem {F : Cnf} {c : List Int} (h : c ∈ readCls F) :
    ∃ d ∈ F, ¬ Tautology d ∧ c = sortAbs (dedup d) := by
  obtain ⟨d, hd, rfl⟩ := List.mem_map.1 h
  obtain ⟨h1, h2⟩ := List.mem_filter.1 hd
  exact ⟨d, h1, by simpa using h2, rfl⟩

/-- Assertions of the output variables, as clauses. -/
def unitsOf : List Nat → List Bool → Cnf
  | [], _ => []
  | v :: vs, [] => [-(v : Int)] :: unitsOf vs []
  | v :: vs, b :: bs => [if b then (v : Int) else -(v : Int)] :: unitsOf vs bs

theorem unitsOf_mem {vs : List Nat} {bs : List Bool} {c : List Int} (h : c ∈ unitsOf vs bs) :
    ∃ v ∈ vs, c = [(v : Int)] ∨ c = [-(v : Int)] := by
  induction vs generalizing bs with
  | nil => cases bs <;> simp [unitsOf] at h
  | cons v vs ih =>
    cases bs with
    | nil =>
      rcases List.mem_cons.1 h with rfl | h
      · exact ⟨v, by simp, Or.inr rfl⟩
      · obtain ⟨w, hw, e⟩ := ih h; exact ⟨w, by simp [hw], e⟩
    | cons b bs =>
      rcases List.mem_cons.1 h with rfl | h
      · exact ⟨v, by simp, by cases b <;> simp⟩
      · obtain ⟨w, hw, e⟩ := ih h; exact ⟨w, by simp [hw], e⟩

theorem readCls_units {F : Cnf} (h : ∀ c ∈ F, ∃ l : Int, l ≠ 0 ∧ c = [l]) : readCls F = F := by
  induction F with
  | nil => rfl
  | cons c F ih =>
    obtain ⟨l, hl, rfl⟩ := h c (by simp)
    have ih := ih fun c hc => h c (by simp [hc])
    unfold readCls at ih ⊢
    rw [List.filter_cons, if_pos, List.map_cons, ih]
    · rfl
    · apply decide_eq_true
      rintro ⟨x, hx, hn⟩
      rw [List.mem_singleton] at hx hn
      omega

theorem readCls_unitsOf {vs : List Nat} (hv : ∀ v ∈ vs, 0 < v) (bs : List Bool) : readCls (unitsOf vs bs) = unitsOf vs bs := by
  apply readCls_units
  intro c hc
  obtain ⟨v, hm, h⟩ := unitsOf_mem hc
  have := hv v hm
  rcases h with rfl | rfl
  · exact ⟨_, by omega, rfl⟩
  · exact ⟨_, by omega, rfl⟩

theorem assertClauses_units (vs : List Nat) (bs : List Bool) :
    (assertClauses (vs.map Bit.var) bs).map (fun c => c.map bitInt) = unitsOf vs bs := by
  induction vs generalizing bs with
  | nil => cases bs <;> rfl
  | cons v vs ih =>
    cases bs with
    | nil => simp only [List.map_cons, assertClauses, List.map_append, ih, unitsOf]; rfl
    | cons b bs =>
      simp only [List.map_cons, assertClauses, List.map_append, ih, unitsOf]
      cases b <;> rfl

/-- Gates of a multiplier with inputs `1 … f1`, `f1+1 … f1+f2` and output variables `vs` (least significant first), as
read. -/
structure MultForm (f1 f2 : Nat) (vs : List Nat) (G : Cnf) : Prop where
  w1 : 2 ≤ f1
  w2 : 2 ≤ f2
  first : ∃ rest, G = [1, (f1 : Int) + 1, -((f1 : Int) + (f2 : Int) + 1)] :: rest
  long : ∀ c ∈ G, 2 ≤ c.length ∧ c.length ≤ 3
  proper : Proper G
  length : f1 + f2 ≤ vs.length
  fresh : ∀ v ∈ vs, f1 + f2 < v
  low : (vs.take (f1 + f2)).Nodup
  high : ∀ v ∈ vs.drop (f1 + f2), v ∉ vs.take (f1 + f2)
  sound : ∀ α : Assign, Sat α G → natOfBits (vs.map α) = numAt α 1 f1 * numAt α (f1 + 1) f2
  complete : ∀ α : Assign, ∃ α' : Assign, (∀ v, v ≤ f1 + f2 → α' v = α v) ∧ Sat α' G

theorem bitInt_ne_zero {b : Bit} (h : 0 < bvar b) : bitInt b ≠ 0 := by
  cases b with
  | const => simp [bvar] at h
  | var v => simp [bvar] at h; simp [bitInt]; omega
  | nvar v => simp [bvar] at h; simp [bitInt]; omega

theorem natAbs_bitInt (b : Bit) : (bitInt b).natAbs = bvar b := by
  cases b <;> simp [bitInt, bvar]

theorem length_ge_two {l : List Int} (hn : l.Nodup) {a b : Int} (ha : a ∈ l) (hb : b ∈ l) (hab : a ≠ b) : 2 ≤ l.length := by
  match l, ha, hb with
  | [x], ha, hb => simp at ha hb; exact absurd (ha.trans hb.symm) hab
  | x :: y :: l, _, _ => simp

theorem gate_read {n n' : Nat} {c : BCl} (h : GateCl n n' c) :
    2 ≤ (sortAbs (dedup (c.map bitInt))).length ∧ (sortAbs (dedup (c.map bitInt))).length ≤ 3 := by
  obtain ⟨x, y, z, rfl, h1, h2, h3, h4, h5, h6⟩ := h
  rw [length_sortAbs]
  constructor
  · apply length_ge_two (nodup_dedup _) (a := bitInt x) (b := bitInt z)
    · simp
    · simp
    · intro e
      have := congrArg Int.natAbs e
      rw [natAbs_bitInt, natAbs_bitInt] at this
      omega
  · have := length_dedup_le ([x, y, z].map bitInt)
    simpa using this

theorem lits_ne_zero {cls : List BCl} (h : ∀ c ∈ cls, ∀ b ∈ c, 0 < bvar b) :
    ∀ c ∈ cls.map (fun c => c.map bitInt), (0 : Int) ∉ c := by
  intro c hc h0
  obtain ⟨d, hd, rfl⟩ := List.mem_map.1 hc
  obtain ⟨b, hb, e⟩ := List.mem_map.1 h0
  exact bitInt_ne_zero (h d hd b hb) e

theorem readCls_proper {F : Cnf} (h : ∀ c ∈ F, c ≠ [] ∧ (0 : Int) ∉ c) : Proper (readCls F) := by
  intro c hc
  obtain ⟨d, hd, ht, rfl⟩ := readCls_mem hc
  obtain ⟨h1, h2⟩ := h d hd
  refine ⟨?_, ?_, ?_⟩
  · intro e
    obtain ⟨l, hl⟩ := List.exists_mem_of_ne_nil _ h1
    have : l ∈ sortAbs (dedup d) := by simpa using hl
    rw [e] at this; simp at this
  · apply Asc.nodup
    apply asc_sortAbs
    apply natAbs_nodup_of_no_taut (nodup_dedup _) (by simpa using h2)
    rintro ⟨l, hl, hn⟩
    exact ht ⟨l, by simpa using hl, by simpa using hn⟩
  · simpa using h2

theorem keep_plain {out : List Bit} (h : ∀ b ∈ out, Pl b) :
    out.filter keepBitVar = ((out.filter keepBitVar).map bvar).map Bit.var := by
  rw [List.map_map]
  conv_lhs => rw [← List.map_id (out.filter keepBitVar)]
  apply List.map_congr_left
  intro b hb
  obtain ⟨h1, h2⟩ := List.mem_filter.1 hb
  have := h b h1
  cases b with
  | const => simp [keepBitVar] at h2
  | var v => rfl
  | nvar v => exact this.elim

theorem multForm_of {f1 f2 : Nat} (h1 : 2 ≤ f1) (h2 : 2 ≤ f2) {out : List Bit} {n' : Nat} {cls : List BCl}
    (h : MultCnf (inputs 1 f1) (inputs (f1 + 1) f2) (f1 + f2 + 1) false true out n' cls)
    (hfirst : ∃ rest, cls = [.var 1, .var (f1 + 1), .nvar (f1 + f2 + 1)] :: rest) :
    MultForm f1 f2 ((out.filter keepBitVar).map bvar) (readCls (cls.map fun c => c.map bitInt)) := by
  have hl0 : ∀ c ∈ cls, ∀ b ∈ c, 0 < bvar b := fun c hc b hb => (h.lits c hc b hb).1
  have hz := lits_ne_zero hl0
  have hsat : ∀ α : Assign, Sat α (readCls (cls.map fun c => c.map bitInt)) ↔ SatB α cls := fun α =>
    (sat_readCls hz α).trans (sat_map hl0)
  have hfil := h.filter h1 h2
  have hlen := h.length h1 h2
  have hbv : ∀ b ∈ out.filter keepBitVar, f1 + f2 < bvar b := by
    intro b hb
    obtain ⟨hb1, hb2⟩ := List.mem_filter.1 hb
    obtain ⟨j, hj, rfl⟩ := List.mem_iff_getElem.1 hb1
    exact h.fresh hj hb2
  have htake : (out.take (f1 + f2)).length = f1 + f2 := by simp; omega
  have hmt : ((out.filter keepBitVar).map bvar).take (f1 + f2) = (out.take (f1 + f2)).map bvar := by
    rw [hfil, List.map_append, List.take_left' (by simp; omega)]
  have hmd : ((out.filter keepBitVar).map bvar).drop (f1 + f2) = ((out.drop (f1 + f2)).filter keepBitVar).map bvar := by
    rw [hfil, List.map_append, List.drop_left' (by simp; omega)]
  refine ⟨h1, h2, ?_, ?_, ?_, ?_, ?_, ?_, ?_, ?_, ?_⟩
  · obtain ⟨rest, rfl⟩ := hfirst
    refine ⟨readCls (rest.map fun c => c.map bitInt), ?_⟩
    have e : ([Bit.var 1, .var (f1 + 1), .nvar (f1 + f2 + 1)] : BCl).map bitInt =
        [1, (f1 : Int) + 1, -((f1 : Int) + (f2 : Int) + 1)] := by simp [bitInt]
    have ha : Asc [1, (f1 : Int) + 1, -((f1 : Int) + (f2 : Int) + 1)] := by
      unfold Asc
      simp
      omega
    unfold readCls
    rw [List.map_cons, List.filter_cons, if_pos, List.map_cons, e, dedup_of_nodup _ (nodup_of_map_nodup (Asc.nodup ha)),
      sortAbs_of_asc ha]
    rw [e]
    apply decide_eq_true
    rintro ⟨l, hl, hn⟩
    simp at hl hn
    omega
  · intro c hc
    obtain ⟨d, hd, _, rfl⟩ := readCls_mem hc
    obtain ⟨e, he, rfl⟩ := List.mem_map.1 hd
    exact gate_read (h.shape rfl e he)
  · apply readCls_proper
    intro c hc
    refine ⟨?_, hz c hc⟩
    obtain ⟨e, he, rfl⟩ := List.mem_map.1 hc
    have := (h.size e he).1
    simpa using this
  · rw [List.length_map, hfil, List.length_append, htake]; omega
  · intro v hv
    obtain ⟨b, hb, rfl⟩ := List.mem_map.1 hv
    exact hbv b hb
  · rw [hmt, List.nodup_iff_injective_get]
    intro i j e
    have hi := i.2
    have hj := j.2
    simp only [List.length_map, htake] at hi hj
    by_contra hne
    have key : ∀ i j : Nat, ∀ hij : i < j, ∀ hj : j < f1 + f2,
        bvar (out[i]'(by clear htake hmt hmd; omega)) ≠ bvar (out[j]'(by clear htake hmt hmd; omega)) := by
      intro i j hij hj
      exact h.sep h1 h2 (by omega) hij (by omega) (h.keep h1 h2 hj (by omega))
    simp only [List.get_eq_getElem, List.getElem_map, List.getElem_take] at e
    rcases Nat.lt_or_gt_of_ne (fun he => hne (Fin.ext he)) with hlt | hlt
    · exact key _ _ hlt hj e
    · exact key _ _ hlt hi e.symm
  · rw [hmd, hmt]
    intro v hv hv'
    obtain ⟨b, hb, rfl⟩ := List.mem_map.1 hv
    obtain ⟨b', hb', e⟩ := List.mem_map.1 hv'
    obtain ⟨hb1, hb2⟩ := List.mem_filter.1 hb
    obtain ⟨j, hj, rfl⟩ := List.mem_iff_getElem.1 hb1
    obtain ⟨i, hi, rfl⟩ := List.mem_iff_getElem.1 hb'
    rw [htake] at hi
    rw [List.length_drop] at hj
    rw [List.getElem_drop] at hb2 e
    rw [List.getElem_take] at e
    exact h.sep h1 h2 hi (by omega) (by omega) hb2 e
  · intro α hs
    have := h.filter_val h1 h2 ((hsat α).1 hs)
    rw [bitsVal_inputs, bitsVal_inputs] at this
    rw [numAt, numAt, ← this, bitsVal]
    conv_rhs => rw [keep_plain (h.pl rfl)]
    rw [List.map_map, List.map_map, List.map_map]
    rfl
  · intro α
    obtain ⟨α', e1, e2⟩ := h.complete α
    exact ⟨α', fun v hv => e1 v (by omega), (hsat α').2 e2⟩

/-! ### reading the generated text -/

theorem addAll_values {H : Type} (F : Cnf) (s : SetObj H) (i : Nat) (h : ∀ c ∈ s.clauses, c.value = none) :
    ∀ c ∈ (addAll s i F).clauses, c.value = none := by
  induction F generalizing s i with
  | nil => exact h
  | cons c F ih =>
    apply ih
    unfold SetObj.addClause
    split
    · exact h
    · split
      · exact h
      · split
        · exact h
        · split
          · next hv =>
            intro d hd
            rcases List.mem_append.1 hd with hd | hd
            · exact h d hd
            · rw [List.mem_singleton.1 hd]; exact hv
          · exact h

/-- A set as read from a generated formula: gates, then the assertions of the bits `bs`; nothing assigned yet. -/
structure MultSet {H : Type} (f1 f2 : Nat) (vs : List Nat) (G : Cnf) (bs : List Bool) (root : SetObj H) : Prop where
  form : MultForm f1 f2 vs G
  eqn : raws root.clauses = G ++ unitsOf vs bs
  value : root.value = none
  fnm : root.finalNamesMap = []
  ev : root.evaluatedVars = []
  open_ : ∀ c ∈ root.clauses, c.value = none

theorem gen_read {H : Type} (a : AdderName) {m : MultName} {N : Nat} (hm : PlainMult m N) (hN : 4 ≤ N) {f1 f2 : Nat}
    (e1 : f1 = Nat.log2 N) (e2 : f2 = (f1 + 2) / 2) :
    ∃ (text : Str) (root : SetObj H) (out : List Bit) (n' : Nat) (cls : List BCl), genText a m N = some text ∧
      readInput .dimacs text = pure root ∧
      symbolic (m.mult a.adder (inputs 1 f1) (inputs (f1 + 1) f2)) (f1 + f2 + 1) = some (out, n', cls) ∧
      MultSet f1 f2 ((out.filter keepBitVar).map bvar) (readCls (cls.map fun c => c.map bitInt)) (int2bits N) root := by
  have hlog : 2 ≤ Nat.log2 N := (Nat.le_log2 (by omega)).2 (by omega)
  have hlen := int2bits_length (n := N) (by omega)
  obtain ⟨out, n', cls, h1, h2, h3⟩ := plain_cnf a hm hN e1 e2
  have hsym := symbolic_multCircuit (m := m.mult a.adder) (out := int2bits N) (cs := out) (next := n') (cls := cls) (by
    rw [hlen, ← h1, Nat.add_sub_cancel, ← e1, show 1 + f1 = f1 + 1 by omega,
      show f1 + 1 + (f1 + 1 + 1) / 2 = f1 + (f1 + 2) / 2 + 1 by omega, ← e2])
  have hform := multForm_of (by omega) (by omega) h2 h3
  have hlits : ∀ c ∈ cls ++ assertClauses (out.filter keepBitVar) (int2bits N), ∀ b ∈ c, 0 < bvar b := by
    intro c hc
    rcases List.mem_append.1 hc with hc | hc
    · exact fun b hb => (h2.lits c hc b hb).1
    · exact fun b hb => (assertClauses_lits (keep_lits h2.ok) _ c hc b hb).1
  have hmap : (cls ++ assertClauses (out.filter keepBitVar) (int2bits N)).map (fun c => c.map bitInt) =
      cls.map (fun c => c.map bitInt) ++ unitsOf ((out.filter keepBitVar).map bvar) (int2bits N) := by
    rw [List.map_append, ← assertClauses_units, ← keep_plain (h2.pl rfl)]
  have hsz : ∀ c ∈ cls.map (fun c => c.map bitInt) ++ unitsOf ((out.filter keepBitVar).map bvar) (int2bits N),
      c ≠ [] ∧ c.length ≤ 3 := by
    intro c hc
    rcases List.mem_append.1 hc with hc | hc
    · obtain ⟨d, hd, rfl⟩ := List.mem_map.1 hc
      have := h2.size d hd
      refine ⟨by simpa using this.1, by simpa using this.2⟩
    · obtain ⟨v, _, h⟩ := unitsOf_mem hc
      rcases h with rfl | rfl <;> simp
  obtain ⟨text, ht, hg, hd⟩ := genText_lines (by omega) hsym hlits (by
    intro c hc he
    have : c.map bitInt ∈ (cls ++ assertClauses (out.filter keepBitVar) (int2bits N)).map (fun c => c.map bitInt) :=
      List.mem_map_of_mem hc
    rw [hmap] at this
    exact (hsz _ this).1 (by rw [he]; rfl))
  rw [hmap] at hd
  have hz : ∀ c ∈ cls.map (fun c => c.map bitInt) ++ unitsOf ((out.filter keepBitVar).map bvar) (int2bits N), (0 : Int) ∉ c := by
    rw [← hmap]; exact lits_ne_zero hlits
  have hread : readInput .dimacs text = pure (addAll ({} : SetObj H) 1
      ((cls.map (fun c => c.map bitInt) ++ unitsOf ((out.filter keepBitVar).map bvar) (int2bits N)).map dedup)) := by
    show parseDimacs text = _
    exact parseDimacs_good hg hd hsz
  obtain ⟨r1, r2, r3, r4, r5⟩ := raws_addAll (H := H)
    (cls.map (fun c => c.map bitInt) ++ unitsOf ((out.filter keepBitVar).map bvar) (int2bits N))
    (fun c hc => ⟨Or.inl (le_trans (length_dedup_le c) (hsz c hc).2), hz c hc⟩) {} 1 (by simp) (by simp)
  have hr : raws (addAll ({} : SetObj H) 1
      ((cls.map (fun c => c.map bitInt) ++ unitsOf ((out.filter keepBitVar).map bvar) (int2bits N)).map dedup)).clauses =
      readCls (cls.map fun c => c.map bitInt) ++ unitsOf ((out.filter keepBitVar).map bvar) (int2bits N) := by
    rw [r1]
    show [] ++ readCls _ = _
    rw [List.nil_append, readCls_append, readCls_unitsOf]
    intro v hv
    have := hform.fresh v hv
    omega
  refine ⟨text, _, out, n', cls, ht, hread, h1, ⟨hform, hr, ?_, r4, r5, addAll_values _ _ _ (by simp)⟩⟩
  rw [r3, if_neg]
  intro e
  rw [e] at hr
  obtain ⟨rest, hG⟩ := hform.first
  rw [hG] at hr
  simp [raws] at hr

end NDP.Gen
