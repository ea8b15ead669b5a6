import Verif.Proofs.Circ
import Verif.SpecGen
import Mathlib.Tactic.Ring
import Mathlib.Tactic.Linarith
/-
  The adders of the generator add.
-/
namespace NDP.Gen
open NDP.Spec

variable {α β γ : Type}

/-- The circuit runs, only adding variables, and its result satisfies `R`. -/
def Run (md : Md) (c : Circ α) (n : Nat) (ρ : Assign) (R : Nat → Assign → α → Prop) : Prop :=
  Tot md c n ρ fun n' ρ' x => Ext n ρ n' ρ' ∧ R n' ρ' x

theorem Run.pure {md : Md} {x : α} {n : Nat} {ρ : Assign} {R : Nat → Assign → α → Prop} (h : R n ρ x) :
    Run md (pure x : Circ α) n ρ R := ⟨Ext.refl _ _, h⟩

theorem Run.bind {md : Md} {c : Circ α} {f : α → Circ β} {n : Nat} {ρ : Assign} {R : Nat → Assign → α → Prop}
    {S : Nat → Assign → β → Prop} (h : Run md c n ρ R)
    (hf : ∀ n' ρ' x, Ext n ρ n' ρ' → R n' ρ' x → Run md (f x) n' ρ' S) : Run md (c >>= f) n ρ S := by
  refine Tot.bind (Tot.mono h ?_)
  rintro n' ρ' x ⟨he, hr⟩
  exact Tot.mono (hf _ _ _ he hr) fun n'' ρ'' y h => ⟨he.trans h.1, h.2⟩

theorem Run.mono {md : Md} {c : Circ α} {n : Nat} {ρ : Assign} {R S : Nat → Assign → α → Prop} (h : Run md c n ρ R)
    (hS : ∀ n' ρ' x, Ext n ρ n' ρ' → R n' ρ' x → S n' ρ' x) : Run md c n ρ S :=
  Tot.mono h fun n' ρ' x h => ⟨h.1, hS _ _ _ h.1 h.2⟩

/-- The bit is usable and has the value `v`; with `pl`, it is moreover `low` or an unnegated variable. -/
structure Has (md : Md) (pl : Bool) (n : Nat) (ρ : Assign) (x : Bit) (v : Bool) : Prop where
  ok : Ok md n x
  val : Gen.val ρ x = v
  pl : pl = true → Pl x

theorem Has.ext {md : Md} {pl : Bool} {n n' : Nat} {ρ ρ' : Assign} (h : Ext n ρ n' ρ') {x : Bit} {v : Bool}
    (hx : Has md pl n ρ x v) : Has md pl n' ρ' x v := ⟨hx.ok.mono h.le, (h.val hx.ok).trans hx.val, hx.pl⟩

theorem Has.weaken {md : Md} {pl : Bool} {n : Nat} {ρ : Assign} {x : Bit} {v : Bool}
    (hx : Has md pl n ρ x v) : Has md false n ρ x v := ⟨hx.ok, hx.val, fun h => by simp at h⟩

theorem has_low (md : Md) (pl : Bool) (n : Nat) (ρ : Assign) : Has md pl n ρ low false := ⟨trivial, rfl, fun _ => rfl⟩

/-- The same for lists of bits. -/
abbrev HasL (md : Md) (pl : Bool) (n : Nat) (ρ : Assign) (xs : List Bit) (vs : List Bool) : Prop :=
  List.Forall₂ (Has md pl n ρ) xs vs

theorem HasL.ext {md : Md} {pl : Bool} {n n' : Nat} {ρ ρ' : Assign} (h : Ext n ρ n' ρ') {xs : List Bit} {vs : List Bool}
    (hx : HasL md pl n ρ xs vs) : HasL md pl n' ρ' xs vs := hx.imp fun _ _ => Has.ext h

theorem HasL.weaken {md : Md} {pl : Bool} {n : Nat} {ρ : Assign} {xs : List Bit} {vs : List Bool}
    (hx : HasL md pl n ρ xs vs) : HasL md false n ρ xs vs := hx.imp fun _ _ => Has.weaken

section gates
variable {md : Md} {pl : Bool} {n : Nat} {ρ : Assign} {a b s : Bit} {va vb vs : Bool}

theorem run_and2 (hn : 0 < n) (ha : Has md pl n ρ a va) (hb : Has md pl n ρ b vb) :
    Run md (and2 a b) n ρ fun n' ρ' r => Has md pl n' ρ' r (va && vb) := by
  have g := gate_and hn ha.ok hb.ok
  exact ⟨ha.ok, hb.ok, upd_ext _ g.le _, ⟨g.ok, (g.val ρ).trans (by rw [ha.val, hb.val]), fun h => pl_and (ha.pl h) (hb.pl h)⟩⟩

theorem run_or2 (hn : 0 < n) (ha : Has md pl n ρ a va) (hb : Has md pl n ρ b vb) :
    Run md (or2 a b) n ρ fun n' ρ' r => Has md pl n' ρ' r (va || vb) := by
  have g := gate_or hn ha.ok hb.ok
  exact ⟨ha.ok, hb.ok, upd_ext _ g.le _, ⟨g.ok, (g.val ρ).trans (by rw [ha.val, hb.val]), fun h => pl_or (ha.pl h) (hb.pl h)⟩⟩

theorem run_xor2 (hn : 0 < n) (ha : Has md pl n ρ a va) (hb : Has md pl n ρ b vb) :
    Run md (xor2 a b) n ρ fun n' ρ' r => Has md pl n' ρ' r (va != vb) := by
  have g := gate_xor hn ha.ok hb.ok
  exact ⟨ha.ok, hb.ok, upd_ext _ g.le _, ⟨g.ok, (g.val ρ).trans (by rw [ha.val, hb.val]), fun h => pl_xor (ha.pl h) (hb.pl h)⟩⟩

theorem run_mux3 (hn : 0 < n) (hs : Has md pl n ρ s vs) (ha : Has md pl n ρ a va) (hb : Has md false n ρ b vb) :
    Run md (mux3 s a b) n ρ fun n' ρ' r => Has md pl n' ρ' r (if vs then vb else va) := by
  have g := gate_mux hn hs.ok ha.ok hb.ok
  exact ⟨hs.ok, ha.ok, hb.ok, upd_ext _ g.le _,
    ⟨g.ok, (g.val ρ).trans (by rw [ha.val, hb.val, hs.val]), fun h => pl_mux (hs.pl h) (ha.pl h)⟩⟩

theorem run_not1 (ha : Has md pl n ρ a va) : Run md (not1 a) n ρ fun n' ρ' r => Has md false n' ρ' r (!va) :=
  ⟨ha.ok, Ext.refl _ _, ha.ok.notBit, by rw [val_notBit, ha.val], fun h => by simp at h⟩

theorem run_assert1 (hmd : md.asserts = true) (ha : Has md pl n ρ a va) :
    Run md (assert1 a va) n ρ fun _ _ _ => True := ⟨hmd, ha.ok, ha.val, Ext.refl _ _, trivial⟩

end gates

/-- A relation that survives the introduction of further variables. -/
def Stable {δ : Type} (R : Nat → Assign → α → δ → Prop) : Prop :=
  ∀ {n ρ n' ρ' x d}, Ext n ρ n' ρ' → R n ρ x d → R n' ρ' x d

theorem run_mapC {δ ε : Type} {md : Md} {R : Nat → Assign → α → δ → Prop} {S : Nat → Assign → β → ε → Prop}
    (hR : Stable R) (hS : Stable S) {f : α → Circ β} {g : δ → ε}
    (hf : ∀ n ρ x d, 0 < n → R n ρ x d → Run md (f x) n ρ fun n' ρ' y => S n' ρ' y (g d))
    {xs : List α} {ds : List δ} {n : Nat} {ρ : Assign} (hn : 0 < n) (h : List.Forall₂ (R n ρ) xs ds) :
    Run md (Circ.mapC f xs) n ρ fun n' ρ' ys => List.Forall₂ (S n' ρ') ys (ds.map g) := by
  induction xs generalizing n ρ ds with
  | nil => cases h; exact Run.pure .nil
  | cons x xs ih =>
    cases h with
    | cons hx h =>
      refine Run.bind (hf _ _ _ _ hn hx) fun n' ρ' y he hy => ?_
      refine Run.bind (ih (Nat.lt_of_lt_of_le hn he.le) (h.imp fun _ _ => hR he)) fun n'' ρ'' ys he' hys => ?_
      exact Run.pure (.cons (hS he' hy) hys)

/-! ### numbers -/

/-- A bit as a number. -/
def b2n (b : Bool) : Nat := if b then 1 else 0

@[simp] theorem b2n_true : b2n true = 1 := rfl
@[simp] theorem b2n_false : b2n false = 0 := rfl

theorem nat_nil : natOfBits [] = 0 := rfl
theorem nat_cons (b : Bool) (bs : List Bool) : natOfBits (b :: bs) = b2n b + 2 * natOfBits bs := rfl

theorem nat_append (xs ys : List Bool) : natOfBits (xs ++ ys) = natOfBits xs + 2 ^ xs.length * natOfBits ys := by
  induction xs with
  | nil => simp [nat_nil]
  | cons x xs ih =>
    rw [List.cons_append, nat_cons, nat_cons, ih, List.length_cons, pow_succ]; ring

theorem nat_lt (xs : List Bool) : natOfBits xs < 2 ^ xs.length := by
  induction xs with
  | nil => simp [nat_nil]
  | cons x xs ih =>
    rw [nat_cons, List.length_cons, pow_succ]
    cases x <;> simp <;> omega

theorem nat_replicate_false (n : Nat) : natOfBits (List.replicate n false) = 0 := by
  induction n with
  | zero => rfl
  | succ n ih => rw [List.replicate_succ, nat_cons, ih]; rfl

theorem nat_singleton (b : Bool) : natOfBits [b] = b2n b := by rw [nat_cons, nat_nil]; omega

/-! ### half and full adders -/

theorem run_halfAdd {md : Md} {pl : Bool} {n : Nat} {ρ : Assign} {a b : Bit} {va vb : Bool} (hn : 0 < n)
    (ha : Has md pl n ρ a va) (hb : Has md pl n ρ b vb) :
    Run md (halfAdd a b) n ρ fun n' ρ' r => Has md pl n' ρ' r.1 (va && vb) ∧ Has md pl n' ρ' r.2 (va != vb) := by
  refine Run.bind (run_and2 hn ha hb) fun n1 ρ1 c h1 hc => ?_
  refine Run.bind (run_xor2 (Nat.lt_of_lt_of_le hn h1.le) (ha.ext h1) (hb.ext h1)) fun n2 ρ2 s h2 hs => ?_
  exact Run.pure ⟨hc.ext h2, hs⟩

/-- Carry and sum of three bits. -/
def full3 (t : Bool × Bool × Bool) : Bool × Bool :=
  ((t.2.1 && t.2.2) != (t.1 && (t.2.1 != t.2.2)), t.1 != (t.2.1 != t.2.2))

theorem full3_eq (c a b : Bool) : b2n (full3 (c, a, b)).2 + 2 * b2n (full3 (c, a, b)).1 = b2n c + b2n a + b2n b := by
  cases c <;> cases a <;> cases b <;> rfl

/-- Two bits with their values. -/
abbrev Has2 (md : Md) (pl : Bool) (n : Nat) (ρ : Assign) (x : Bit × Bit) (v : Bool × Bool) : Prop :=
  Has md pl n ρ x.1 v.1 ∧ Has md pl n ρ x.2 v.2

/-- Three bits with their values. -/
abbrev Has3 (md : Md) (pl : Bool) (n : Nat) (ρ : Assign) (x : Bit × Bit × Bit) (v : Bool × Bool × Bool) : Prop :=
  Has md pl n ρ x.1 v.1 ∧ Has md pl n ρ x.2.1 v.2.1 ∧ Has md pl n ρ x.2.2 v.2.2

theorem stable_has (md : Md) (pl : Bool) : Stable (Has md pl) := fun he h => h.ext he
theorem stable_hasL (md : Md) (pl : Bool) : Stable (HasL md pl) := fun he h => HasL.ext he h
theorem stable_has2 (md : Md) (pl : Bool) : Stable (Has2 md pl) := fun he h => ⟨h.1.ext he, h.2.ext he⟩
theorem stable_has3 (md : Md) (pl : Bool) : Stable (Has3 md pl) := fun he h => ⟨h.1.ext he, h.2.1.ext he, h.2.2.ext he⟩

theorem run_fullAdd {md : Md} {pl : Bool} {n : Nat} {ρ : Assign} {c a b : Bit} {vc va vb : Bool} (hn : 0 < n)
    (hc : Has md pl n ρ c vc) (ha : Has md pl n ρ a va) (hb : Has md pl n ρ b vb) :
    Run md (fullAdd c a b) n ρ fun n' ρ' r => Has2 md pl n' ρ' r (full3 (vc, va, vb)) := by
  refine Run.bind (run_halfAdd hn ha hb) fun n1 ρ1 r1 h1 hr1 => ?_
  refine Run.bind (run_halfAdd (Nat.lt_of_lt_of_le hn h1.le) (hc.ext h1) hr1.2) fun n2 ρ2 r2 h2 hr2 => ?_
  refine Run.bind (run_xor2 (Nat.lt_of_lt_of_le hn (h1.trans h2).le) (hr1.1.ext h2) hr2.1) fun n3 ρ3 r3 h3 hr3 => ?_
  exact Run.pure ⟨hr3, hr2.2.ext h3⟩

/-! ### the n-bit adder -/

/-- `zipPad` on values. -/
def zipPadB : List Bool → List Bool → List (Bool × Bool)
  | [], ys => ys.map fun y => (false, y)
  | x :: xs, [] => (x, false) :: zipPadB xs []
  | x :: xs, y :: ys => (x, y) :: zipPadB xs ys

/-- Sum of a list of columns. -/
def colSum : List (Bool × Bool) → Nat
  | [] => 0
  | (a, b) :: l => b2n a + b2n b + 2 * colSum l

theorem colSum_zipPadB (xs ys : List Bool) : colSum (zipPadB xs ys) = natOfBits xs + natOfBits ys := by
  induction xs generalizing ys with
  | nil =>
    induction ys with
    | nil => rfl
    | cons y ys ih =>
      rw [zipPadB] at ih ⊢
      rw [List.map_cons, colSum, ih, nat_cons, nat_nil]; simp
  | cons x xs ih =>
    cases ys with
    | nil => rw [zipPadB, colSum, ih, nat_cons, nat_nil]; simp
    | cons y ys => rw [zipPadB, colSum, ih, nat_cons, nat_cons]; omega

theorem length_zipPadB (xs ys : List Bool) : (zipPadB xs ys).length = max xs.length ys.length := by
  induction xs generalizing ys with
  | nil => simp [zipPadB]
  | cons x xs ih =>
    cases ys with
    | nil => rw [zipPadB, List.length_cons, ih]; simp
    | cons y ys => rw [zipPadB, List.length_cons, ih, List.length_cons, List.length_cons]; omega

theorem has_zipPad {md : Md} {pl : Bool} {n : Nat} {ρ : Assign} {as bs : List Bit} {va vb : List Bool}
    (ha : HasL md pl n ρ as va) (hb : HasL md pl n ρ bs vb) :
    List.Forall₂ (Has2 md pl n ρ) (zipPad as bs) (zipPadB va vb) := by
  have hl := has_low md pl n ρ
  induction ha generalizing bs vb with
  | nil =>
    induction hb with
    | nil => exact .nil
    | cons h _ ih => exact List.Forall₂.cons (R := Has2 md pl n ρ) ⟨hl, h⟩ ih
  | cons h _ ih =>
    cases hb with
    | nil => exact List.Forall₂.cons (R := Has2 md pl n ρ) ⟨h, hl⟩ (ih .nil)
    | cons h' hb => exact List.Forall₂.cons (R := Has2 md pl n ρ) ⟨h, h'⟩ (ih hb)

theorem run_foldBlock {md : Md} {pl : Bool} {zs : List (Bit × Bit)} {vz : List (Bool × Bool)} {n : Nat} {ρ : Assign}
    {st : Bit × List Bit} {vc : Bool} {vs : List Bool} (hn : 0 < n) (hc : Has md pl n ρ st.1 vc)
    (hs : HasL md pl n ρ st.2 vs) (hz : List.Forall₂ (Has2 md pl n ρ) zs vz) :
    Run md (Circ.foldC fullAddBlock st zs) n ρ fun n' ρ' r => ∃ vc' vs', Has md pl n' ρ' r.1 vc' ∧
      HasL md pl n' ρ' r.2 (vs ++ vs') ∧ vs'.length = vz.length ∧
      natOfBits vs' + 2 ^ vz.length * b2n vc' = b2n vc + colSum vz := by
  induction zs generalizing n ρ st vc vs vz with
  | nil =>
    cases hz
    exact Run.pure ⟨vc, [], hc, by simpa using hs, rfl, by simp [nat_nil, colSum]⟩
  | cons z zs ih =>
    cases hz with
    | @cons _ v _ vz hz1 hz =>
      obtain ⟨va, vb⟩ := v
      have step : Run md (fullAddBlock st z) n ρ fun n' ρ' r => Has md pl n' ρ' r.1 (full3 (vc, va, vb)).1 ∧
          HasL md pl n' ρ' r.2 (vs ++ [(full3 (vc, va, vb)).2]) := by
        refine Run.bind (run_fullAdd hn hc hz1.1 hz1.2) fun n1 ρ1 r h1 hr => ?_
        exact Run.pure ⟨hr.1, List.rel_append (HasL.ext h1 hs) (.cons hr.2 .nil)⟩
      refine Run.bind step fun n1 ρ1 r h1 hr => ?_
      refine Run.mono (ih (Nat.lt_of_lt_of_le hn h1.le) hr.1 hr.2 (hz.imp fun _ _ => stable_has2 md pl h1)) ?_
      rintro n2 ρ2 x _ ⟨vc', vs', h1, h2, h3, h4⟩
      refine ⟨vc', (full3 (vc, va, vb)).2 :: vs', h1, by simpa using h2, by simp [h3], ?_⟩
      have := full3_eq vc va vb
      rw [nat_cons, colSum, List.length_cons, pow_succ]
      linarith

theorem run_nAdderCarry {md : Md} {pl : Bool} {n : Nat} {ρ : Assign} {as bs : List Bit} {va vb : List Bool} {c : Bit}
    {vc : Bool} (hn : 0 < n) (ha : HasL md pl n ρ as va) (hb : HasL md pl n ρ bs vb) (hc : Has md pl n ρ c vc) :
    Run md (nAdderCarry as bs c) n ρ fun n' ρ' r => ∃ vs vc', HasL md pl n' ρ' r.1 vs ∧ Has md pl n' ρ' r.2 vc' ∧
      vs.length = max va.length vb.length ∧
      natOfBits vs + 2 ^ max va.length vb.length * b2n vc' = natOfBits va + natOfBits vb + b2n vc := by
  refine Run.bind (run_foldBlock hn hc .nil (has_zipPad ha hb)) fun n1 ρ1 r h1 hr => ?_
  obtain ⟨vc', vs', h1, h2, h3, h4⟩ := hr
  refine Run.pure ⟨vs', vc', by simpa using h2, h1, by rw [h3, length_zipPadB], ?_⟩
  rw [length_zipPadB, colSum_zipPadB] at h4
  omega

/-- What an adder does: the result is the sum, one bit wider than the wider argument. -/
def AdderOk (adder : Adder) : Prop :=
  ∀ {md : Md} {pl : Bool} {n : Nat} {ρ : Assign} {as bs : List Bit} {va vb : List Bool}, 0 < n →
    HasL md pl n ρ as va → HasL md pl n ρ bs vb → (as ≠ [] ∨ bs ≠ []) →
    Run md (adder as bs) n ρ fun n' ρ' r => ∃ vr, HasL md pl n' ρ' r vr ∧ natOfBits vr = natOfBits va + natOfBits vb ∧
      vr.length = max as.length bs.length + 1

theorem HasL.length {md : Md} {pl : Bool} {n : Nat} {ρ : Assign} {xs : List Bit} {vs : List Bool}
    (h : HasL md pl n ρ xs vs) : xs.length = vs.length := h.length_eq

theorem nAdder_ok : AdderOk nAdder := by
  intro md pl n ρ as bs va vb hn ha hb _
  refine Run.bind (run_nAdderCarry hn ha hb (has_low md pl n ρ)) fun n1 ρ1 r h1 hr => ?_
  obtain ⟨vs, vc, h2, h3, h4, h5⟩ := hr
  refine Run.pure ⟨vs ++ [vc], List.rel_append h2 (.cons h3 .nil), ?_, ?_⟩
  · rw [nat_append, nat_singleton, h4, h5]; simp
  · simp [h4, ha.length, hb.length]

/-! ### the fast adder -/

/-- A unit of the fast adder stands for the columns `zs`. -/
structure FOk (md : Md) (pl : Bool) (n : Nat) (ρ : Assign) (u : FUnit) (zs : List (Bool × Bool)) : Prop where
  ex : ∃ vs vt vg vp, HasL md pl n ρ u.s vs ∧ HasL md false n ρ u.t vt ∧ Has md pl n ρ u.g vg ∧ Has md pl n ρ u.p vp ∧
    vs.length = zs.length ∧ vt.length = zs.length ∧
    natOfBits vs + 2 ^ zs.length * b2n vg = colSum zs ∧
    natOfBits vt + 2 ^ zs.length * b2n vp = colSum zs + 1

theorem stable_fOk (md : Md) (pl : Bool) : Stable (FOk md pl) := by
  rintro n ρ n' ρ' u zs he ⟨vs, vt, vg, vp, h1, h2, h3, h4, h5⟩
  exact ⟨vs, vt, vg, vp, HasL.ext he h1, HasL.ext he h2, h3.ext he, h4.ext he, h5⟩

theorem run_fastUnit {md : Md} {pl : Bool} {n : Nat} {ρ : Assign} {ab : Bit × Bit} {v : Bool × Bool} (hn : 0 < n)
    (h : Has2 md pl n ρ ab v) : Run md (fastAdderUnit ab) n ρ fun n' ρ' u => FOk md pl n' ρ' u [v] := by
  obtain ⟨va, vb⟩ := v
  refine Run.bind (run_xor2 hn h.1 h.2) fun n1 ρ1 s h1 hs => ?_
  refine Run.bind (run_not1 hs) fun n2 ρ2 t h2 ht => ?_
  have e2 := h1.trans h2
  refine Run.bind (run_and2 (Nat.lt_of_lt_of_le hn e2.le) (h.1.ext e2) (h.2.ext e2)) fun n3 ρ3 g h3 hg => ?_
  have e3 := e2.trans h3
  refine Run.bind (run_or2 (Nat.lt_of_lt_of_le hn e3.le) (h.1.ext e3) (h.2.ext e3)) fun n4 ρ4 p h4 hp => ?_
  refine Run.pure ⟨[va != vb], [!(va != vb)], va && vb, va || vb, .cons (hs.ext (h2.trans (h3.trans h4))) .nil,
    .cons (ht.ext (h3.trans h4)) .nil, hg.ext h4, hp, rfl, rfl, ?_, ?_⟩ <;>
  cases va <;> cases vb <;> rfl

theorem colSum_append (xs ys : List (Bool × Bool)) : colSum (xs ++ ys) = colSum xs + 2 ^ xs.length * colSum ys := by
  induction xs with
  | nil => simp [colSum]
  | cons x xs ih =>
    obtain ⟨a, b⟩ := x
    rw [List.cons_append, colSum, colSum, ih, List.length_cons, pow_succ]; ring

theorem run_multiplexN {md : Md} {pl : Bool} {n : Nat} {ρ : Assign} {c : Bit} {vc : Bool} {xs ys : List Bit}
    {vx vy : List Bool} (hn : 0 < n) (hc : Has md pl n ρ c vc) (hx : HasL md pl n ρ xs vx) (hy : HasL md false n ρ ys vy)
    (hl : vx.length = vy.length) :
    Run md (multiplexN c xs ys) n ρ fun n' ρ' r => HasL md pl n' ρ' r (if vc then vy else vx) := by
  let R : Nat → Assign → Bit × Bit → Bool × Bool → Prop := fun n ρ p v =>
    Has md pl n ρ c vc ∧ Has md pl n ρ p.1 v.1 ∧ Has md false n ρ p.2 v.2
  have hR : Stable R := fun he h => ⟨h.1.ext he, h.2.1.ext he, h.2.2.ext he⟩
  have h2 : List.Forall₂ (R n ρ) (xs.zip ys) (vx.zip vy) := by
    clear hl
    induction hx generalizing ys vy with
    | nil => exact .nil
    | cons h _ ih =>
      cases hy with
      | nil => exact .nil
      | cons h' hy => exact .cons ⟨hc, h, h'⟩ (ih hy)
  have := run_mapC (R := R) (S := Has md pl) (g := fun v : Bool × Bool => if vc then v.2 else v.1) hR (stable_has md pl)
    (f := fun p : Bit × Bit => mux3 c p.1 p.2) (md := md)
    (fun n ρ x d hn h => run_mux3 hn h.1 h.2.1 h.2.2) hn h2
  refine Run.mono this ?_
  intro n' ρ' r _ hr
  have e : (vx.zip vy).map (fun v : Bool × Bool => if vc then v.2 else v.1) = if vc then vy else vx := by
    cases vc
    · simp [List.map_fst_zip (Nat.le_of_eq hl)]
    · simp [List.map_snd_zip (Nat.le_of_eq hl.symm)]
  rw [e] at hr
  exact hr

theorem run_fastStage {md : Md} {pl : Bool} {n : Nat} {ρ : Assign} {l h : FUnit} {zl zh : List (Bool × Bool)} (hn : 0 < n)
    (hl : FOk md pl n ρ l zl) (hh : FOk md pl n ρ h zh) :
    Run md (fastStage (l, h)) n ρ fun n' ρ' u => FOk md pl n' ρ' u (zl ++ zh) := by
  obtain ⟨ls, lt, lg, lp, l1, l2, l3, l4, l5, l6, l7, l8⟩ := hl
  obtain ⟨hs, ht, hg, hp, h1, h2, h3, h4, h5, h6, h7, h8⟩ := hh
  refine Run.bind (run_multiplexN hn l3 h1 h2 (by rw [h5, h6])) fun n1 ρ1 ns e1 hns => ?_
  have p1 := Nat.lt_of_lt_of_le hn e1.le
  refine Run.bind (run_multiplexN p1 (l4.weaken.ext e1) (HasL.ext e1 h1.weaken) (HasL.ext e1 h2) (by rw [h5, h6])) fun n2 ρ2 nt e2 hnt => ?_
  have E2 := e1.trans e2
  have p2 := Nat.lt_of_lt_of_le hn E2.le
  refine Run.bind (run_or2 p2 (h3.ext E2) (h4.ext E2)) fun n3 ρ3 a e3 ha => ?_
  have E3 := E2.trans e3
  refine Run.bind (run_or2 (Nat.lt_of_lt_of_le hn E3.le) (h3.ext E3) (l4.ext E3)) fun n4 ρ4 b e4 hb => ?_
  have E4 := E3.trans e4
  refine Run.bind (run_and2 (Nat.lt_of_lt_of_le hn E4.le) (ha.ext e4) hb) fun n5 ρ5 p e5 hp' => ?_
  have E5 := E4.trans e5
  refine Run.bind (run_or2 (Nat.lt_of_lt_of_le hn E5.le) (h3.ext E5) (h4.ext E5)) fun n6 ρ6 a' e6 ha' => ?_
  have E6 := E5.trans e6
  refine Run.bind (run_or2 (Nat.lt_of_lt_of_le hn E6.le) (h3.ext E6) (l3.ext E6)) fun n7 ρ7 b' e7 hb' => ?_
  have E7 := E6.trans e7
  refine Run.bind (run_and2 (Nat.lt_of_lt_of_le hn E7.le) (ha'.ext e7) hb') fun n8 ρ8 g e8 hg' => ?_
  have E8 := E7.trans e8
  have F1 : Ext n1 ρ1 n8 ρ8 := e2.trans (e3.trans (e4.trans (e5.trans (e6.trans (e7.trans e8)))))
  have F2 : Ext n2 ρ2 n8 ρ8 := e3.trans (e4.trans (e5.trans (e6.trans (e7.trans e8))))
  have F5 : Ext n5 ρ5 n8 ρ8 := e6.trans (e7.trans e8)
  -- a carry out without carry in implies one with carry in
  have hmono : hg = true → hp = true := by
    intro e
    cases hp with
    | true => rfl
    | false =>
      have := nat_lt ht
      rw [e] at h7
      rw [h6] at this
      simp at h7 h8
      omega
  refine Run.pure ⟨ls ++ (if lg then ht else hs), lt ++ (if lp then ht else hs), _, _,
    List.rel_append (HasL.ext E8 l1) (HasL.ext F1 hns), List.rel_append (HasL.ext E8 l2) (HasL.ext F2 hnt), hg', hp'.ext F5, ?_, ?_, ?_, ?_⟩
  · cases lg <;> simp [l5, h5, h6]
  · cases lp <;> simp [l6, h5, h6]
  · rw [nat_append, colSum_append, List.length_append, pow_add, l5, ← l7]
    cases lg
    · have e : ((hg || hp) && (hg || false)) = hg := by cases hg <;> simp
      rw [e]
      simp only [Bool.false_eq_true, if_false, b2n_false]
      rw [← h7]; ring
    · have e : ((hg || hp) && (hg || true)) = hp := by cases hg <;> cases hp <;> simp_all
      rw [e]
      simp only [if_true, b2n_true]
      have : 2 ^ zl.length * (natOfBits ht + 2 ^ zh.length * b2n hp) = 2 ^ zl.length * (colSum zh + 1) := by rw [h8]
      linarith
  · rw [nat_append, colSum_append, List.length_append, pow_add, l6]
    cases lp
    · have e : ((hg || hp) && (hg || false)) = hg := by cases hg <;> simp
      rw [e]
      simp only [Bool.false_eq_true, if_false, b2n_false] at l8 ⊢
      have : 2 ^ zl.length * (natOfBits hs + 2 ^ zh.length * b2n hg) = 2 ^ zl.length * colSum zh := by rw [h7]
      linarith
    · have e : ((hg || hp) && (hg || true)) = hp := by cases hg <;> cases hp <;> simp_all
      rw [e]
      simp only [if_true, b2n_true] at l8 ⊢
      have : 2 ^ zl.length * (natOfBits ht + 2 ^ zh.length * b2n hp) = 2 ^ zl.length * (colSum zh + 1) := by rw [h8]
      linarith

end NDP.Gen
