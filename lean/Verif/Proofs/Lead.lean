import Verif.Proofs.GenRead
/-
  The first clauses of the recursive multiplier: which circuits add no clause (`Quiet`), and which gate is the first to add one
  (`Lead`).
-/
namespace NDP.Gen
open Spec

variable {α β γ : Type}

/-- The circuit adds no clause and no variable, whatever follows it. -/
def Quiet (c : Circ α) (n : Nat) (x : α) : Prop := ∀ {β : Type} (f : α → Circ β), symbolic (c >>= f) n = symbolic (f x) n

/-- The first clause is that of a gate of the variables `p` and `q`, whatever follows the circuit. -/
def Lead (c : Circ α) (n p q : Nat) : Prop := ∀ {β : Type} (f : α → Circ β) {r : β} {n' : Nat} {cls : List BCl},
  symbolic (c >>= f) n = some (r, n', cls) → ∃ rest, cls = [.var p, .var q, .nvar n] :: rest

theorem circ_assoc (c : Circ α) (f : α → Circ β) (g : β → Circ γ) : (c >>= f) >>= g = c >>= fun x => f x >>= g := by
  show Circ.bind (Circ.bind c f) g = Circ.bind c fun x => Circ.bind (f x) g
  induction c with
  | ret x => rfl
  | error => rfl
  | newVar k ih => simp only [Circ.bind]; congr 1; funext b; exact ih b
  | not1 a k ih => simp only [Circ.bind]; congr 1; funext b; exact ih b
  | and2 a b k ih => simp only [Circ.bind]; congr 1; funext b; exact ih b
  | or2 a b k ih => simp only [Circ.bind]; congr 1; funext b; exact ih b
  | xor2 a b k ih => simp only [Circ.bind]; congr 1; funext b; exact ih b
  | mux3 s a b k ih => simp only [Circ.bind]; congr 1; funext b; exact ih b
  | assert1 a b k ih => simp only [Circ.bind]; congr 1

theorem circ_pure_bind (x : α) (f : α → Circ β) : (pure x : Circ α) >>= f = f x := rfl

theorem circ_bind_pure (c : Circ α) : c >>= pure = c := by
  show Circ.bind c Circ.ret = c
  induction c with
  | ret x => rfl
  | error => rfl
  | newVar k ih => simp only [Circ.bind]; congr 1; funext b; exact ih b
  | not1 a k ih => simp only [Circ.bind]; congr 1; funext b; exact ih b
  | and2 a b k ih => simp only [Circ.bind]; congr 1; funext b; exact ih b
  | or2 a b k ih => simp only [Circ.bind]; congr 1; funext b; exact ih b
  | xor2 a b k ih => simp only [Circ.bind]; congr 1; funext b; exact ih b
  | mux3 s a b k ih => simp only [Circ.bind]; congr 1; funext b; exact ih b
  | assert1 a b k ih => simp only [Circ.bind]; congr 1

theorem Lead.bind {c : Circ α} {n p q : Nat} (h : Lead c n p q) (g : α → Circ β) : Lead (c >>= g) n p q := by
  intro γ f r n' cls hs
  rw [circ_assoc] at hs
  exact h _ hs

theorem Quiet.lead {c : Circ α} {n p q : Nat} {x : α} (h : Quiet c n x) {g : α → Circ β} (hg : Lead (g x) n p q) :
    Lead (c >>= g) n p q := by
  intro γ f r n' cls hs
  rw [circ_assoc, h] at hs
  exact hg _ hs

theorem Quiet.bind {c : Circ α} {n : Nat} {x : α} {y : β} (h : Quiet c n x) {g : α → Circ β} (hg : Quiet (g x) n y) :
    Quiet (c >>= g) n y := by
  intro γ f
  rw [circ_assoc, h, hg]

theorem Lead.first {c : Circ α} {n p q : Nat} (h : Lead c n p q) {r : α} {n' : Nat} {cls : List BCl}
    (hs : symbolic c n = some (r, n', cls)) : ∃ rest, cls = [.var p, .var q, .nvar n] :: rest :=
  h pure (by rw [circ_bind_pure]; exact hs)

theorem lead_and {p q n : Nat} (k : Bit → Circ α) : Lead (.and2 (.var p) (.var q) k) n p q := by
  intro β f r n' cls hs
  exact symbolic_first (c := Circ.and2 (.var p) (.var q) fun b => (k b).bind f) rfl hs

theorem lead_xor {p q n : Nat} (k : Bit → Circ α) : Lead (.xor2 (.var p) (.var q) k) n p q := by
  intro β f r n' cls hs
  have hs : symbolic (Circ.xor2 (.var p) (.var q) fun b => (k b).bind f) n = some (r, n', cls) := hs
  simp only [symbolic, symXor, Option.map_eq_some_iff] at hs
  obtain ⟨r', _, he⟩ := hs
  refine ⟨(xorCls n (.var p) (.var q)).tail ++ r'.2.2, ?_⟩
  have : cls = xorCls n (.var p) (.var q) ++ r'.2.2 := (congrArg (fun z => z.2.2) he).symm
  rw [this]; rfl

/-- A circuit of constants adds nothing. -/
theorem quiet_of_tot {as : Bool} {c : Circ α} {n : Nat} {ρ : Assign} {Q : Nat → Assign → α → Prop}
    (h : Tot ⟨true, as⟩ c n ρ Q) : ∃ x, Quiet c n x := by
  have ok : ∀ {b : Bit}, Ok ⟨true, as⟩ n b → ∃ x, b = .const x := by
    intro b hb
    cases b with
    | const x => exact ⟨x, rfl⟩
    | var v => exact absurd hb.1 (by simp)
    | nvar v => exact absurd hb.1 (by simp)
  have om : ∀ {γ : Type} (o : Option (γ × Nat × List BCl)), o.map (fun r => (r.1, r.2.1, [] ++ r.2.2)) = o := by
    intro γ o; cases o <;> simp
  suffices hh : ∃ x, ∀ (β : Type) (f : α → Circ β), symbolic (Circ.bind c f) n = symbolic (f x) n by
    obtain ⟨x, hx⟩ := hh
    exact ⟨x, fun f => hx _ f⟩
  induction c with
  | ret x => exact ⟨x, fun _ _ => rfl⟩
  | error => exact h.elim
  | newVar k ih => exact absurd h.1 (by simp)
  | not1 a k ih =>
    obtain ⟨x, rfl⟩ := ok h.1
    exact ih _ h.2
  | and2 a b k ih =>
    obtain ⟨x, rfl⟩ := ok h.1
    obtain ⟨y, rfl⟩ := ok h.2.1
    have h := h.2.2
    cases x <;> cases y <;>
      (simp only [symAnd, upd_same] at h
       obtain ⟨z, hz⟩ := ih _ h
       exact ⟨z, fun β f => by simp only [Circ.bind, symbolic, symAnd, om, hz]⟩)
  | or2 a b k ih =>
    obtain ⟨x, rfl⟩ := ok h.1
    obtain ⟨y, rfl⟩ := ok h.2.1
    have h := h.2.2
    cases x <;> cases y <;>
      (simp only [symOr, upd_same] at h
       obtain ⟨z, hz⟩ := ih _ h
       exact ⟨z, fun β f => by simp only [Circ.bind, symbolic, symOr, om, hz]⟩)
  | xor2 a b k ih =>
    obtain ⟨x, rfl⟩ := ok h.1
    obtain ⟨y, rfl⟩ := ok h.2.1
    have h := h.2.2
    cases x <;> cases y <;>
      (simp only [symXor, notBit, upd_same] at h
       obtain ⟨z, hz⟩ := ih _ h
       exact ⟨z, fun β f => by simp only [Circ.bind, symbolic, symXor, notBit, om, hz]⟩)
  | mux3 s a b k ih =>
    obtain ⟨z, rfl⟩ := ok h.1
    obtain ⟨x, rfl⟩ := ok h.2.1
    obtain ⟨y, rfl⟩ := ok h.2.2.1
    have h := h.2.2.2
    cases z <;>
      (simp only [symMux, upd_same] at h
       obtain ⟨z, hz⟩ := ih _ h
       exact ⟨z, fun β f => by simp only [Circ.bind, symbolic, symMux, om, hz]⟩)
  | assert1 a b k ih =>
    obtain ⟨x, rfl⟩ := ok h.2.1
    obtain ⟨y, hy⟩ := ih h.2.2.2
    have e : x = b := h.2.2.1
    exact ⟨y, fun β f => by simp only [Circ.bind, symbolic]; rw [if_pos e, hy]⟩

theorem quiet_mapC {f : α → Circ β} {g : α → β} {n : Nat} (l : List α) (h : ∀ x ∈ l, Quiet (f x) n (g x)) :
    Quiet (Circ.mapC f l) n (l.map g) := by
  induction l with
  | nil => intro γ k; rfl
  | cons x l ih =>
    refine Quiet.bind (h x (by simp)) (Quiet.bind (ih fun x hx => h x (by simp [hx])) ?_)
    intro γ k; rfl

theorem quiet_and_low (a : Bit) (n : Nat) : Quiet (and2 a low) n low := by
  intro β f
  show symbolic (Circ.and2 a low fun b => f b) n = _
  simp only [symbolic]
  rcases a with (_ | _) | v | v <;> simp [symAnd, low]

/-- A product by zero adds nothing. -/
theorem quiet_wallace {ad : Adder} (had : AdderOk ad) (xs : List Bit) (k : Nat) {n : Nat} (hn : 0 < n) :
    ∃ r, Quiet (wallace ad xs (List.replicate k low)) n r := by
  have h1 : Quiet (Circ.mapC (fun b => Circ.mapC (fun a => and2 a b) xs) (List.replicate k low)) n
      ((List.replicate k low).map fun _ => xs.map fun _ => low) := by
    refine quiet_mapC (g := fun _ => xs.map fun _ => low) _ fun b hb => ?_
    rw [List.eq_of_mem_replicate hb]
    exact quiet_mapC (g := fun _ => low) _ fun a _ => quiet_and_low a n
  have hrows : List.Forall₂ (HasL ⟨true, true⟩ false n fun _ => false) ((List.replicate k low).map fun _ => xs.map fun _ => low)
      ((List.replicate k low).map fun _ => List.replicate xs.length false) := by
    simp only [List.map_const', List.length_replicate]
    induction k with
    | zero => exact .nil
    | succ k ih =>
      rw [List.replicate_succ, List.replicate_succ]
      refine .cons (has_replicate _ _ _ _ _) (ih ?_)
      refine quiet_mapC (g := fun _ => xs.map fun _ => low) _ fun b hb => ?_
      rw [List.eq_of_mem_replicate hb]
      exact quiet_mapC (g := fun _ => low) _ fun a _ => quiet_and_low a n
  have h2 := run_wAdderN had (f := (shiftRows 0 ((List.replicate k low).map fun _ => xs.map fun _ => low)).length) hn
    (has_shiftRows 0 hrows) (by omega) (by
      intro h2
      rw [shiftRows_length] at h2
      generalize (List.replicate k low).map (fun _ => xs.map fun _ => low) = rs at h2
      match rs, h2 with
      | [r, r'], _ => exact ⟨shift 1 r', by simp [shiftRows], by simp [shift]⟩)
  obtain ⟨r, hr⟩ := quiet_of_tot h2
  exact ⟨r, h1.bind hr⟩

theorem lead_adder (a : AdderName) {p q n : Nat} (as bs : List Bit) : Lead (a.adder (.var p :: as) (.var q :: bs)) n p q := by
  cases a with
  | nbit => exact lead_and _
  | fast => exact lead_xor _

theorem take_inputs (s n k : Nat) (h : k ≤ n) : (inputs s n).take k = inputs s k := by
  apply List.ext_getElem
  · simp [inputs, h]
  · intro i h1 h2
    simp [inputs]

theorem padTo_self {n : Nat} {l : List Bit} (h : l.length = n) : padTo n l = l := by
  unfold padTo
  rw [List.take_of_length_le (by omega), h, Nat.sub_self, List.replicate_zero, List.append_nil]

theorem length_inputs (s n : Nat) : (inputs s n).length = n := by simp [inputs]

/-- One step of the recursive multiplier on factors of the same width. -/
theorem recursive_step (ad : Adder) {f L : Nat} {xs ys : List Bit} (hx : xs.length = L) (hy : ys.length = L) (hL : 21 ≤ L) :
    ∃ k : List Bit → List Bit → List Bit → Circ (List Bit), recursiveN bound ad (f + 1) xs ys =
      (recursiveN bound ad f (xs.drop ((L + 1) / 2)) (ys.drop ((L + 1) / 2)) >>= fun p1 =>
       recursiveN bound ad f (xs.take ((L + 1) / 2)) (ys.take ((L + 1) / 2)) >>= fun p3 =>
       ad (xs.drop ((L + 1) / 2)) (xs.take ((L + 1) / 2)) >>= k p1 p3) := by
  rw [recursiveN]
  simp only [hx, hy, Nat.max_self, ge_iff_le, padTo_self]
  rw [if_neg (by simp only [bound]; omega), if_neg (by omega)]
  exact ⟨_, rfl⟩

theorem recursive_low (ad : Adder) {f : Nat} {xs ys : List Bit} (h : max xs.length ys.length ≤ bound) :
    recursiveN bound ad (f + 1) xs ys = wallace ad xs ys := by
  unfold recursiveN
  simp only [ge_iff_le, h, if_true]

/-- The recursive multiplier on a zero: the first gate is one of the sum of two parts of the first factor. -/
theorem lead_zero (a : AdderName) (f : Nat) {L s n : Nat} (hn : 0 < n) (hf : L ≤ f) (hL : 21 ≤ L) :
    ∃ p q, s ≤ p ∧ p < s + L ∧ s ≤ q ∧ q < s + L ∧ p ≠ q ∧
      Lead (recursiveN bound a.adder (f + 1) (inputs s L) (List.replicate L low)) n p q := by
  induction f generalizing L s with
  | zero => omega
  | succ f ih =>
    obtain ⟨k, hk⟩ := recursive_step a.adder (f := f + 1) (length_inputs s L) (List.length_replicate (n := L) (a := low)) hL
    rw [hk, drop_inputs, take_inputs _ _ _ (by omega), List.drop_replicate, List.take_replicate, Nat.min_eq_left (by omega)]
    generalize hh : (L + 1) / 2 = h
    by_cases h1 : 21 ≤ L - h
    · obtain ⟨p, q, h2, h3, h4, h5, h6, h7⟩ := ih (s := s + h) (by omega) h1
      exact ⟨p, q, by omega, by omega, by omega, by omega, h6, h7.bind _⟩
    obtain ⟨r1, q1⟩ := quiet_wallace (adder_ok a) (inputs (s + h) (L - h)) (L - h) hn
    rw [recursive_low a.adder (f := f) (xs := inputs (s + h) (L - h)) (ys := List.replicate (L - h) low)
      (by simp [inputs, bound]; omega)]
    by_cases h2 : 21 ≤ h
    · obtain ⟨p, q, h2, h3, h4, h5, h6, h7⟩ := ih (s := s) (L := h) (by omega) h2
      exact ⟨p, q, by omega, by omega, by omega, by omega, h6, q1.lead (h7.bind _)⟩
    obtain ⟨r2, q2⟩ := quiet_wallace (adder_ok a) (inputs s h) h hn
    rw [recursive_low a.adder (f := f) (xs := inputs s h) (ys := List.replicate h low) (by simp [inputs, bound]; omega)]
    refine ⟨s + h, s, by omega, by omega, by omega, by omega, by omega, q1.lead (q2.lead (Lead.bind ?_ _))⟩
    rw [show L - h = (L - h - 1) + 1 by omega, inputs_succ]
    conv => arg 1; rw [show inputs s h = inputs s ((h - 1) + 1) by rw [show h - 1 + 1 = h by omega], inputs_succ]
    exact lead_adder a _ _

/-- The recursive multiplier on a second factor of one bit. -/
theorem lead_bit (a : AdderName) (f : Nat) {L s t n : Nat} (hn : 0 < n) (hf : L ≤ f) (hL : 1 ≤ L) :
    ∃ p q, ((p = s ∧ q = t) ∨ (41 < L ∧ s ≤ p ∧ p < s + L ∧ s ≤ q ∧ q < s + L ∧ p ≠ q)) ∧
      Lead (recursiveN bound a.adder (f + 1) (inputs s L) (.var t :: List.replicate (L - 1) low)) n p q := by
  induction f generalizing L with
  | zero => omega
  | succ f ih =>
    by_cases hs : L ≤ 20
    · rw [recursive_low a.adder (by simp [inputs, bound]; omega)]
      refine ⟨s, t, Or.inl ⟨rfl, rfl⟩, ?_⟩
      rw [show inputs s L = inputs s ((L - 1) + 1) by rw [show L - 1 + 1 = L by omega], inputs_succ]
      exact lead_and _
    · obtain ⟨k, hk⟩ := recursive_step a.adder (f := f + 1) (length_inputs s L) (ys := .var t :: List.replicate (L - 1) low)
        (L := L) (by simp; omega) (by omega)
      generalize hh : (L + 1) / 2 = h at hk
      have e1 : (Bit.var t :: List.replicate (L - 1) low).drop h = List.replicate (L - h) low := by
        rw [show h = (h - 1) + 1 by omega, List.drop_succ_cons, List.drop_replicate]
        congr 1; omega
      have e2 : (Bit.var t :: List.replicate (L - 1) low).take h = .var t :: List.replicate (h - 1) low := by
        rw [show h = (h - 1) + 1 by omega, List.take_succ_cons, List.take_replicate, Nat.min_eq_left (by omega)]
        rfl
      rw [hk, drop_inputs, take_inputs _ _ _ (by omega), e1, e2]
      by_cases h1 : 21 ≤ L - h
      · obtain ⟨p, q, h2, h3, h4, h5, h6, h7⟩ := lead_zero a f (L := L - h) (s := s + h) hn (by omega) h1
        exact ⟨p, q, Or.inr ⟨by omega, by omega, by omega, by omega, by omega, h6⟩, h7.bind _⟩
      · obtain ⟨r1, q1⟩ := quiet_wallace (adder_ok a) (inputs (s + h) (L - h)) (L - h) hn
        rw [recursive_low a.adder (f := f) (xs := inputs (s + h) (L - h)) (ys := List.replicate (L - h) low)
          (by simp [inputs, bound]; omega)]
        obtain ⟨p, q, h2, h3⟩ := ih (L := h) (by omega) (by omega)
        refine ⟨p, q, ?_, q1.lead (h3.bind _)⟩
        rcases h2 with h2 | h2
        · exact Or.inl h2
        · omega

/-- The recursive multiplier on two factors of the same width. -/
theorem lead_equal (a : AdderName) (f : Nat) {L s t n : Nat} (hf : L ≤ f) (hL : 1 ≤ L) :
    ∃ d, d < L ∧ (21 ≤ L → 1 ≤ d) ∧ Lead (recursiveN bound a.adder (f + 1) (inputs s L) (inputs t L)) n (s + d) (t + d) := by
  induction f generalizing L s t with
  | zero => omega
  | succ f ih =>
    by_cases hs : L ≤ 20
    · rw [recursive_low a.adder (by simp [inputs, bound]; omega)]
      refine ⟨0, by omega, by omega, ?_⟩
      rw [show inputs s L = inputs s ((L - 1) + 1) by rw [show L - 1 + 1 = L by omega], inputs_succ,
        show inputs t L = inputs t ((L - 1) + 1) by rw [show L - 1 + 1 = L by omega], inputs_succ]
      exact lead_and _
    · obtain ⟨k, hk⟩ := recursive_step a.adder (f := f + 1) (length_inputs s L) (length_inputs t L) (by omega)
      generalize hh : (L + 1) / 2 = h at hk
      rw [hk, drop_inputs, drop_inputs]
      obtain ⟨d, h1, _, h3⟩ := ih (L := L - h) (s := s + h) (t := t + h) (by omega) (by omega)
      refine ⟨h + d, by omega, by omega, ?_⟩
      rw [show s + (h + d) = s + h + d by omega, show t + (h + d) = t + h + d by omega]
      exact h3.bind _

/-- The first gate of the recursive multiplier, where it is not that of the two lowest bits. -/
theorem lead_recursive (a : AdderName) {m : Nat} {f2 : Nat} (e2 : f2 = (m + 2) / 2) (hm : (m % 2 = 0 ∧ 22 ≤ m) ∨ 41 ≤ m) {n : Nat}
    (hn : 0 < n) :
    ∃ p q, 0 < p ∧ 0 < q ∧ p < m + f2 + 1 ∧ q < m + f2 + 1 ∧ p ≠ q ∧ max p q ≠ m + 1 ∧
      (m % 2 = 0 → m ≤ 82 → p = m / 2 + 1 ∧ q = m + f2) ∧
      Lead (recursive bound a.adder (inputs 1 m) (inputs (m + 1) f2)) n p q := by
  unfold recursive
  rw [length_inputs, length_inputs, show max m f2 = m by omega, recursiveN]
  simp only [length_inputs, show max m f2 = m by omega, ge_iff_le]
  rw [if_neg (by simp only [bound]; omega), padTo_self (length_inputs 1 m)]
  by_cases he : m % 2 = 0
  · obtain ⟨k, rfl⟩ : ∃ k, m = 2 * k := ⟨m / 2, by omega⟩
    obtain rfl : f2 = k + 1 := by omega
    rw [if_neg (by omega)]
    have hh : (2 * k + 1) / 2 = k := by omega
    rw [hh, drop_inputs]
    have hy : (padTo (2 * k) (inputs (2 * k + 1) (k + 1))).drop k = .var (3 * k + 1) :: List.replicate (k - 1) low := by
      unfold padTo
      rw [length_inputs, List.take_of_length_le (by rw [length_inputs]; omega),
        List.drop_append_of_le_length (by rw [length_inputs]; omega), drop_inputs,
        show k + 1 - k = 0 + 1 by omega, inputs_succ, show 2 * k + 1 + k = 3 * k + 1 by omega,
        show 2 * k - (k + 1) = k - 1 by omega]
      rfl
    rw [hy, show 2 * k - k = k by omega]
    obtain ⟨p, q, h1, h2⟩ := lead_bit a (2 * k - 1) (L := k) (s := 1 + k) (t := 3 * k + 1) hn (by omega) (by omega)
    rw [show 2 * k - 1 + 1 = 2 * k by omega] at h2
    refine ⟨p, q, ?_, ?_, ?_, ?_, ?_, ?_, ?_, h2.bind _⟩ <;> omega
  · obtain ⟨k, rfl⟩ : ∃ k, m = 2 * k - 1 := ⟨(m + 1) / 2, by omega⟩
    obtain rfl : f2 = k := by omega
    rw [if_pos (by omega), show (2 * f2 - 1 + 1) / 2 = f2 by omega, take_inputs _ _ _ (by omega)]
    have hy : (padTo (2 * f2 - 1) (inputs (2 * f2 - 1 + 1) f2)).take f2 = inputs (2 * f2 - 1 + 1) f2 := by
      unfold padTo
      rw [List.take_of_length_le (l := inputs _ _) (by rw [length_inputs]; omega), List.take_append_of_le_length (by rw [length_inputs]),
        List.take_of_length_le (by rw [length_inputs])]
    rw [hy]
    obtain ⟨d, h1, h2, h3⟩ := lead_equal a (2 * f2 - 2) (L := f2) (s := 1) (t := 2 * f2 - 1 + 1) (n := n) (by omega) (by omega)
    rw [show 2 * f2 - 2 + 1 = 2 * f2 - 1 by omega] at h3
    have h2 := h2 (by omega)
    refine ⟨1 + d, 2 * f2 - 1 + 1 + d, ?_, ?_, ?_, ?_, ?_, ?_, ?_, h3.bind _⟩ <;> omega

end NDP.Gen
