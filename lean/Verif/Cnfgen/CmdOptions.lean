import Verif.Cnfgen.CmdBip
import Verif.Lib.Str
/-
  What the options of `cnfgen` that describe a graph accept: the `argparse` actions of `cmdline.py` 218-223, 356-364, 376-418, 541-606, 617-645.
  Paths below are relative to `software/cnfgen/cnfformula`.  A function below gets the strings that belong to the option on the command line (as many as
  `nargs` says; `argparse` itself refuses any other number).
-/
namespace NDP.Cnfgen
open NDP

/-! ### Model -/

/-- A Python `float`. -/
inductive PyFloat where
  | nan
  | inf (negative : Bool)
  | fin (q : Rat)
  deriving DecidableEq

/-- `x < y`. -/
def PyFloat.lt : PyFloat → PyFloat → Bool
  | .fin a, .fin b => decide (a < b)
  | .inf true, .fin _ | .inf true, .inf false | .fin _, .inf false => true
  | _, _ => false

/-- `x <= y`. -/
def PyFloat.le : PyFloat → PyFloat → Bool
  | .fin a, .fin b => decide (a ≤ b)
  | .inf true, .fin _ | .inf true, .inf _ | .fin _, .inf false | .inf false, .inf false => true
  | _, _ => false

/-- How the parsing of an option ends: a value, a message about the usage (`parser.error`, exit status 2), or a Python exception that nothing catches
(`cnfgen.py` 212 is outside of any `try`). -/
inductive Parsed (α : Type) where
  | ok (a : α)
  | usage
  | crash (e : PyErr)
  deriving DecidableEq

/-- `cmdline.py` 218-223 (`positive_int`); `none`: `ValueError`. -/
def positiveInt (s : Str) : Option Nat :=
  match parseInt s with
  | some i => if i ≤ 0 then none else some i.toNat
  | none => none

/-- `type=positive_int`: `argparse` turns the `ValueError` into a message. -/
def typed {α : Type} : Option α → Parsed α
  | some a => .ok a
  | none => .usage

/-- `except ValueError as e: raise argparse.ArgumentError(self,e.message)` (`cmdline.py` 362, 549, …): in Python 3 an exception has no attribute `message`. -/
def checked {α : Type} : Option α → Parsed α
  | some a => .ok a
  | none => .crash .attributeError

/-- After `type`, the `action`. -/
def Parsed.andThen {α β : Type} : Parsed α → (α → Parsed β) → Parsed β
  | .ok a, f => f a
  | .usage, _ => .usage
  | .crash e, _ => .crash e

/-- Two positive numbers (`type=positive_int`, `nargs=2`). -/
def pos2 (a b : Str) : Option (Nat × Nat) := do pure (← positiveInt a, ← positiveInt b)
/-- Three positive numbers. -/
def pos3 (a b c : Str) : Option (Nat × Nat × Nat) := do pure (← positiveInt a, ← positiveInt b, ← positiveInt c)

/-- `--complete`, `--empty`, `--plantclique`, `--addedges` (`cmdline.py` 403-418, 638). -/
def optOne (a : Str) : Parsed Nat := typed (positiveInt a)

/-- `--gnm`, `--gnd`, `--bcomplete`, `--plantbiclique` (`cmdline.py` 389-394, 632, 638). -/
def optTwo (a b : Str) : Parsed (Nat × Nat) := typed (pos2 a b)

/-- `--grid`, `--torus` (`cmdline.py` 396-402). -/
def optMany (as : List Str) : Parsed (List Nat) := typed (mapOpt positiveInt as)

/-- `--gnp` (`cmdline.py` 356-364, 385); `flt` is `float(...)`. -/
def optGnp (flt : Str → Option PyFloat) (a b : Str) : Parsed (Nat × PyFloat) :=
  checked (do
    let n ← positiveInt a
    let p ← flt b
    if PyFloat.lt (.fin 1) p || PyFloat.lt p (.fin 0) then none else some (n, p))

/-- `--bp` (`cmdline.py` 541-549, 617). -/
def optBp (flt : Str → Option PyFloat) (a b c : Str) : Parsed (Nat × Nat × PyFloat) :=
  checked (do
    let l ← positiveInt a
    let r ← positiveInt b
    let p ← flt c
    if !(PyFloat.le (.fin 0) p && PyFloat.le p (.fin 1)) then none else some (l, r, p))

/-- `--bregular` (`cmdline.py` 551-561, 626): the numbers are read in the action. -/
def optBregular (a b c : Str) : Parsed (Nat × Nat × Nat) :=
  checked (do
    let (l, r, d) ← pos3 a b c
    if d > r then none
    else if d * l % r ≠ 0 then none
    else some (l, r, d))

/-- `--bm` (`cmdline.py` 563-571, 620). -/
def optBm (a b c : Str) : Parsed (Nat × Nat × Nat) :=
  (typed (pos3 a b c)).andThen fun (l, r, m) => checked (if m > r * l then none else some (l, r, m))

/-- `--bd` (`cmdline.py` 596-604, 623). -/
def optBd (a b c : Str) : Parsed (Nat × Nat × Nat) :=
  (typed (pos3 a b c)).andThen fun (l, r, d) => checked (if d > r then none else some (l, r, d))

/-- Two neighbours in the list are equal (`cmdline.py` 583-585). -/
def repeats : List Nat → Bool
  | a :: b :: rest => a == b || repeats (b :: rest)
  | _ => false

/-- The check of `--bshift` (`cmdline.py` 573-594). -/
def shiftCheck : List Nat → Option (Nat × Nat × List Nat)
  | N :: K :: rest =>
    let pattern := isort (fun a b => decide (a < b)) rest
    if repeats pattern then none
    else if N < 1 ∨ K < 1 then none
    else if pattern.any fun x => decide (x < 1 ∨ x > K) then none
    else some (N, K, pattern)
  | _ => none

/-- `--bshift` (`cmdline.py` 629). -/
def optBshift (as : List Str) : Parsed (Nat × Nat × List Nat) :=
  (typed (mapOpt positiveInt as)).andThen fun vs => checked (shiftCheck vs)

/-! ### Specification -/

/-- The string is a Python integer, and positive. -/
def IsPos (s : Str) (n : Nat) : Prop := parseInt s = some (n : Int) ∧ 0 < n

/-- The strings are positive integers. -/
inductive ArePos : List Str → List Nat → Prop where
  | nil : ArePos [] []
  | cons {s : Str} {n : Nat} {ss : List Str} {ns : List Nat} : IsPos s n → ArePos ss ns → ArePos (s :: ss) (n :: ns)

/-- A number between 0 and 1. -/
def PyFloat.Unit : PyFloat → Prop
  | .fin q => 0 ≤ q ∧ q ≤ 1
  | _ => False

/-- The number of neighbours of a left and of a right vertex. -/
def BiGraph.degL (g : BiGraph) (u : Nat) : Nat := (g.edges.filter fun e => decide (e.1 = u)).length
def BiGraph.degR (g : BiGraph) (v : Nat) : Nat := (g.edges.filter fun e => decide (e.2 = v)).length

/-! ### Proofs -/

theorem positiveInt_iff {s : Str} {n : Nat} : positiveInt s = some n ↔ IsPos s n := by
  unfold positiveInt IsPos
  cases h : parseInt s with
  | none => simp
  | some i =>
    dsimp only
    split
    · constructor
      · rintro ⟨⟩
      · rintro ⟨h1, h2⟩; cases h1; omega
    · constructor
      · intro e; cases e; exact ⟨by rw [Int.toNat_of_nonneg (by omega)], by omega⟩
      · rintro ⟨h1, h2⟩; cases h1; rfl

theorem pos2_iff {a b : Str} {p : Nat × Nat} : pos2 a b = some p ↔ IsPos a p.1 ∧ IsPos b p.2 := by
  rw [← positiveInt_iff, ← positiveInt_iff]
  unfold pos2
  cases positiveInt a <;> cases positiveInt b <;> simp [Prod.ext_iff]

theorem pos3_iff {a b c : Str} {p : Nat × Nat × Nat} : pos3 a b c = some p ↔ IsPos a p.1 ∧ IsPos b p.2.1 ∧ IsPos c p.2.2 := by
  rw [← positiveInt_iff, ← positiveInt_iff, ← positiveInt_iff]
  unfold pos3
  cases positiveInt a <;> cases positiveInt b <;> cases positiveInt c <;> simp [Prod.ext_iff]

theorem posMany_iff {as : List Str} {ns : List Nat} : mapOpt positiveInt as = some ns ↔ ArePos as ns := by
  induction as generalizing ns with
  | nil =>
    constructor
    · intro h; cases h; exact .nil
    · intro h; cases h; rfl
  | cons s ss ih =>
    constructor
    · intro h
      unfold mapOpt at h
      cases h1 : positiveInt s with
      | none => rw [h1] at h; cases h
      | some n =>
        rw [h1] at h
        cases h2 : mapOpt positiveInt ss with
        | none => rw [h2] at h; cases h
        | some ms => rw [h2] at h; cases h; exact .cons (positiveInt_iff.1 h1) (ih.1 h2)
    · intro h
      cases h with
      | cons h1 h2 => unfold mapOpt; rw [positiveInt_iff.2 h1, ih.2 h2]

theorem typed_ok {α : Type} {o : Option α} {a : α} : typed o = .ok a ↔ o = some a := by cases o <;> simp [typed]
theorem typed_usage {α : Type} {o : Option α} : typed o = .usage ↔ ∀ a, o ≠ some a := by cases o <;> simp [typed]
theorem checked_ok {α : Type} {o : Option α} {a : α} : checked o = .ok a ↔ o = some a := by cases o <;> simp [checked]
theorem checked_crash {α : Type} {o : Option α} : checked o = .crash .attributeError ↔ ∀ a, o ≠ some a := by cases o <;> simp [checked]

/-- **C91, one and two numbers.** Exactly positive integers are accepted; anything else is a message about the usage. -/
theorem C91_plain (a b : Str) (as : List Str) :
    (∀ n, optOne a = .ok n ↔ IsPos a n) ∧ ((∀ n, ¬ IsPos a n) → optOne a = .usage) ∧
    (∀ p, optTwo a b = .ok p ↔ IsPos a p.1 ∧ IsPos b p.2) ∧ ((¬ ∃ p, ArePos [a, b] p) → optTwo a b = .usage) ∧
    (∀ ns, optMany as = .ok ns ↔ ArePos as ns) ∧ ((¬ ∃ ns, ArePos as ns) → optMany as = .usage) := by
  refine ⟨fun n => by unfold optOne; rw [typed_ok, positiveInt_iff], fun h => by unfold optOne; exact typed_usage.2 fun n e => h n (positiveInt_iff.1 e),
    fun p => by unfold optTwo; rw [typed_ok, pos2_iff], fun h => ?_, fun ns => by unfold optMany; rw [typed_ok, posMany_iff], fun h => ?_⟩
  · unfold optTwo
    refine typed_usage.2 fun p e => h ⟨[p.1, p.2], ?_⟩
    obtain ⟨h1, h2⟩ := pos2_iff.1 e
    exact .cons h1 (.cons h2 .nil)
  · unfold optMany
    exact typed_usage.2 fun ns e => h ⟨ns, posMany_iff.1 e⟩

theorem arePos3 {a b c : Str} : (∃ ns, ArePos [a, b, c] ns) ↔ ∃ p, pos3 a b c = some p := by
  constructor
  · rintro ⟨ns, h⟩
    cases h with
    | cons h1 h => cases h with
      | cons h2 h => cases h with
        | cons h3 h => exact ⟨(_, _, _), pos3_iff.2 ⟨h1, h2, h3⟩⟩
  · rintro ⟨p, h⟩
    obtain ⟨h1, h2, h3⟩ := pos3_iff.1 h
    exact ⟨_, .cons h1 (.cons h2 (.cons h3 .nil))⟩

/-- **C91, `--bm`.** Accepted: two positive sizes and a positive number of edges there is room for.  A string that is not a positive integer is a message;
too many edges are an `AttributeError`, which is meant to be a message too. -/
theorem C91_bm (a b c : Str) :
    (∀ l r m, optBm a b c = .ok (l, r, m) ↔ IsPos a l ∧ IsPos b r ∧ IsPos c m ∧ m ≤ l * r) ∧
    ((¬ ∃ ns, ArePos [a, b, c] ns) → optBm a b c = .usage) ∧
    (∀ l r m, IsPos a l → IsPos b r → IsPos c m → l * r < m → optBm a b c = .crash .attributeError) := by
  unfold optBm
  refine ⟨fun l r m => ?_, fun h => ?_, fun l r m h1 h2 h3 h4 => ?_⟩
  · cases h : pos3 a b c with
    | none =>
      refine ⟨fun e => by simp [typed, Parsed.andThen] at e, fun ⟨h1, h2, h3, _⟩ => ?_⟩
      rw [pos3_iff (p := (l, r, m)) |>.2 ⟨h1, h2, h3⟩] at h; cases h
    | some p =>
      obtain ⟨l', r', m'⟩ := p
      have hp := pos3_iff.1 h
      simp only [typed, Parsed.andThen, checked_ok]
      constructor
      · intro e
        split at e
        · cases e
        · cases e; refine ⟨hp.1, hp.2.1, hp.2.2, ?_⟩; rw [Nat.mul_comm]; omega
      · rintro ⟨h1, h2, h3, h4⟩
        have := (pos3_iff (p := (l, r, m))).2 ⟨h1, h2, h3⟩
        rw [h] at this; cases this
        rw [if_neg (by rw [Nat.mul_comm r l]; omega)]
  · cases e : pos3 a b c with
    | none => rfl
    | some p => exact absurd (arePos3.2 ⟨p, e⟩) h
  · rw [(pos3_iff (p := (l, r, m))).2 ⟨h1, h2, h3⟩]
    simp only [typed, Parsed.andThen]
    rw [if_pos (by rw [Nat.mul_comm r l]; omega)]; rfl

/-- **C91, `--bd`.** Accepted: positive numbers, the degree at most the size of the right side. -/
theorem C91_bd (a b c : Str) :
    (∀ l r d, optBd a b c = .ok (l, r, d) ↔ IsPos a l ∧ IsPos b r ∧ IsPos c d ∧ d ≤ r) ∧
    ((¬ ∃ ns, ArePos [a, b, c] ns) → optBd a b c = .usage) ∧
    (∀ l r d, IsPos a l → IsPos b r → IsPos c d → r < d → optBd a b c = .crash .attributeError) := by
  unfold optBd
  refine ⟨fun l r m => ?_, fun h => ?_, fun l r m h1 h2 h3 h4 => ?_⟩
  · cases h : pos3 a b c with
    | none =>
      refine ⟨fun e => by simp [typed, Parsed.andThen] at e, fun ⟨h1, h2, h3, _⟩ => ?_⟩
      rw [pos3_iff (p := (l, r, m)) |>.2 ⟨h1, h2, h3⟩] at h; cases h
    | some p =>
      obtain ⟨l', r', m'⟩ := p
      have hp := pos3_iff.1 h
      simp only [typed, Parsed.andThen, checked_ok]
      constructor
      · intro e
        split at e
        · cases e
        · cases e; refine ⟨hp.1, hp.2.1, hp.2.2, ?_⟩; omega
      · rintro ⟨h1, h2, h3, h4⟩
        have := (pos3_iff (p := (l, r, m))).2 ⟨h1, h2, h3⟩
        rw [h] at this; cases this
        rw [if_neg (by omega)]
  · cases e : pos3 a b c with
    | none => rfl
    | some p => exact absurd (arePos3.2 ⟨p, e⟩) h
  · rw [(pos3_iff (p := (l, r, m))).2 ⟨h1, h2, h3⟩]
    simp only [typed, Parsed.andThen]
    rw [if_pos (by omega)]; rfl

/-- **C91, `--bregular`.** Accepted: positive numbers, the degree at most the size of the right side, and the edges are a multiple of it.  Everything else, even a
string that is not a number, is an `AttributeError`. -/
theorem C91_bregular (a b c : Str) :
    (∀ l r d, optBregular a b c = .ok (l, r, d) ↔ IsPos a l ∧ IsPos b r ∧ IsPos c d ∧ d ≤ r ∧ r ∣ l * d) ∧
    ((¬ ∃ l r d, IsPos a l ∧ IsPos b r ∧ IsPos c d ∧ d ≤ r ∧ r ∣ l * d) → optBregular a b c = .crash .attributeError) := by
  have key : ∀ l r d, optBregular a b c = .ok (l, r, d) ↔ IsPos a l ∧ IsPos b r ∧ IsPos c d ∧ d ≤ r ∧ r ∣ l * d := by
    intro l r d
    unfold optBregular
    rw [checked_ok]
    cases h : pos3 a b c with
    | none =>
      refine ⟨fun e => (by cases e), fun ⟨h1, h2, h3, _⟩ => ?_⟩
      rw [pos3_iff (p := (l, r, d)) |>.2 ⟨h1, h2, h3⟩] at h; cases h
    | some p =>
      obtain ⟨l', r', d'⟩ := p
      have hp := pos3_iff.1 h
      simp only [Option.bind_eq_bind, Option.bind_some]
      constructor
      · intro e
        split at e
        · cases e
        · split at e
          · cases e
          · rename_i h1 h2
            cases e
            exact ⟨hp.1, hp.2.1, hp.2.2, by omega, Nat.dvd_of_mod_eq_zero (by rw [Nat.mul_comm]; omega)⟩
      · rintro ⟨h1, h2, h3, h4, h5⟩
        have := (pos3_iff (p := (l, r, d))).2 ⟨h1, h2, h3⟩
        rw [h] at this; cases this
        rw [if_neg (by omega), if_neg (by rw [Nat.mul_comm, Nat.mod_eq_zero_of_dvd h5]; simp)]
  refine ⟨key, fun hno => ?_⟩
  unfold optBregular at key ⊢
  rw [checked_crash]
  rintro ⟨l, r, d⟩ e
  exact hno ⟨l, r, d, (key l r d).1 (checked_ok.2 e)⟩

theorem le_zero_one {p : PyFloat} : (PyFloat.le (.fin 0) p && PyFloat.le p (.fin 1)) = true ↔ p.Unit := by
  cases p with
  | nan => simp [PyFloat.le, PyFloat.Unit]
  | inf b => cases b <;> simp [PyFloat.le, PyFloat.Unit]
  | fin q => simp [PyFloat.le, PyFloat.Unit]

/-- **C91, `--bp`.** Accepted: positive sizes and a number between 0 and 1; everything else is an `AttributeError`. -/
theorem C91_bp (flt : Str → Option PyFloat) (a b c : Str) :
    (∀ l r p, optBp flt a b c = .ok (l, r, p) ↔ IsPos a l ∧ IsPos b r ∧ flt c = some p ∧ p.Unit) ∧
    ((¬ ∃ l r p, IsPos a l ∧ IsPos b r ∧ flt c = some p ∧ p.Unit) → optBp flt a b c = .crash .attributeError) := by
  have key : ∀ l r p, optBp flt a b c = .ok (l, r, p) ↔ IsPos a l ∧ IsPos b r ∧ flt c = some p ∧ p.Unit := by
    intro l r p
    unfold optBp
    rw [checked_ok, ← positiveInt_iff, ← positiveInt_iff]
    cases positiveInt a with
    | none => simp
    | some l' =>
      cases positiveInt b with
      | none => simp
      | some r' =>
        cases flt c with
        | none => simp
        | some p' =>
          simp only [Option.bind_eq_bind, Option.bind_some]
          by_cases h : (PyFloat.le (.fin 0) p' && PyFloat.le p' (.fin 1)) = true
          · rw [h]
            simp only [Bool.not_true, Bool.false_eq_true, if_false, Option.some.injEq, Prod.mk.injEq]
            constructor
            · rintro ⟨rfl, rfl, rfl⟩; exact ⟨rfl, rfl, rfl, le_zero_one.1 h⟩
            · rintro ⟨rfl, rfl, rfl, _⟩; exact ⟨rfl, rfl, rfl⟩
          · rw [Bool.not_eq_true] at h
            rw [h]
            simp only [Bool.not_false, if_true, reduceCtorEq, false_iff]
            rintro ⟨_, _, e, hu⟩
            cases e
            rw [le_zero_one.2 hu] at h; cases h
  refine ⟨key, fun hno => ?_⟩
  unfold optBp at key ⊢
  rw [checked_crash]
  rintro ⟨l, r, p⟩ e
  exact hno ⟨l, r, p, (key l r p).1 (checked_ok.2 e)⟩

theorem lt_one_zero {p : PyFloat} : (PyFloat.lt (.fin 1) p || PyFloat.lt p (.fin 0)) = true ↔ ¬ (p.Unit ∨ p = .nan) := by
  cases p with
  | nan => simp [PyFloat.lt, PyFloat.Unit]
  | inf b => cases b <;> simp [PyFloat.lt, PyFloat.Unit]
  | fin q => simp [PyFloat.lt, PyFloat.Unit]; constructor <;> intro h
             · intro h0; rcases h with h | h
               · exact h
               · exact absurd h0 (not_le.2 h)
             · by_cases h0 : 0 ≤ q
               · exact .inl (h h0)
               · exact .inr (not_le.1 h0)

/-- **C91, `--gnp`.** Accepted: a positive size, and a number between 0 and 1 or, although the check is there to keep such things out, `nan`.  Everything
else is an `AttributeError`. -/
theorem C91_gnp (flt : Str → Option PyFloat) (a b : Str) :
    (∀ n p, optGnp flt a b = .ok (n, p) ↔ IsPos a n ∧ flt b = some p ∧ (p.Unit ∨ p = .nan)) ∧
    ((¬ ∃ n p, IsPos a n ∧ flt b = some p ∧ (p.Unit ∨ p = .nan)) → optGnp flt a b = .crash .attributeError) := by
  have key : ∀ n p, optGnp flt a b = .ok (n, p) ↔ IsPos a n ∧ flt b = some p ∧ (p.Unit ∨ p = .nan) := by
    intro n p
    unfold optGnp
    rw [checked_ok, ← positiveInt_iff]
    cases positiveInt a with
    | none => simp
    | some l' =>
      cases flt b with
      | none => simp
      | some p' =>
        simp only [Option.bind_eq_bind, Option.bind_some]
        by_cases h : (PyFloat.lt (.fin 1) p' || PyFloat.lt p' (.fin 0)) = true
        · rw [if_pos h]
          simp only [reduceCtorEq, false_iff]
          rintro ⟨_, e, hu⟩
          cases e
          exact lt_one_zero.1 h hu
        · rw [if_neg h]
          simp only [Option.some.injEq, Prod.mk.injEq]
          constructor
          · rintro ⟨rfl, rfl⟩; exact ⟨rfl, rfl, by by_contra hc; exact h (lt_one_zero.2 hc)⟩
          · rintro ⟨rfl, rfl, _⟩; exact ⟨rfl, rfl⟩
  refine ⟨key, fun hno => ?_⟩
  unfold optGnp at key ⊢
  rw [checked_crash]
  rintro ⟨n, p⟩ e
  exact hno ⟨n, p, (key n p).1 (checked_ok.2 e)⟩

theorem ArePos.pos {as : List Str} {ns : List Nat} (h : ArePos as ns) : ∀ x ∈ ns, 0 < x := by
  induction h with
  | nil => simp
  | cons h3 _ ih => intro x hx; rcases List.mem_cons.1 hx with rfl | hx; exacts [h3.2, ih x hx]

theorem repeats_iff {l : List Nat} (hs : SortedBy (fun a b => decide (a < b)) l) : repeats l = true ↔ ¬ l.Nodup := by
  induction l with
  | nil => simp [repeats]
  | cons a t ih =>
    cases t with
    | nil => simp [repeats]
    | cons b rest =>
      obtain ⟨h1, h2⟩ := List.pairwise_cons.1 hs
      unfold repeats
      rw [Bool.or_eq_true, ih h2, beq_iff_eq, List.nodup_cons (a := a)]
      constructor
      · rintro (h | h) ⟨h3, h4⟩
        · exact h3 (by rw [h]; exact List.mem_cons_self)
        · exact h h4
      · intro h
        by_cases hb : a = b
        · exact .inl hb
        · refine .inr fun hn => h ⟨?_, hn⟩
          intro hm
          rcases List.mem_cons.1 hm with e | hm
          · exact hb e
          · have e1 := (List.pairwise_cons.1 h2).1 a hm
            have e2 := h1 b List.mem_cons_self
            simp only [decide_eq_false_iff_not] at e1 e2
            omega

theorem isort_nat_sorted (l : List Nat) : SortedBy (fun a b => decide (a < b)) (isort (fun a b => decide (a < b)) l) :=
  isort_sorted (lt := fun a b : Nat => decide (a < b)) (by intro a b h; simp at h ⊢; omega) (by intro a b c h1 h2; simp at h1 h2 ⊢; omega) l

/-- What `--bshift` accepts: the two sizes, both positive, and different numbers from 1 to the second size, in any order. -/
def ShiftOK (as : List Str) (N K : Nat) (ns : List Nat) : Prop :=
  ArePos as (N :: K :: ns) ∧ ns.Nodup ∧ ∀ p ∈ ns, p ≤ K

/-- **C91, `--bshift`.** Accepted: exactly that; the pattern is then in increasing order.  A string that is not a positive integer is a message; everything else
is an `AttributeError`. -/
theorem C91_bshift (as : List Str) :
    (∀ N K pattern, optBshift as = .ok (N, K, pattern) ↔ pattern.Pairwise (· < ·) ∧ ∃ ns, pattern.Perm ns ∧ ShiftOK as N K ns) ∧
    ((¬ ∃ ns, ArePos as ns) → optBshift as = .usage) ∧
    ((∃ ns, ArePos as ns) → (¬ ∃ N K ns, ShiftOK as N K ns) → optBshift as = .crash .attributeError) := by
  have core : ∀ {vs : List Nat}, ArePos as vs → ∀ N K pattern, shiftCheck vs = some (N, K, pattern) ↔ pattern.Pairwise (· < ·) ∧ ∃ ns, pattern.Perm ns ∧ ShiftOK as N K ns := by
    intro vs hv N K pattern
    have huniq : ∀ ws, ArePos as ws → ws = vs := fun ws hw => by
      have e1 := posMany_iff.2 hw; rw [posMany_iff.2 hv] at e1; exact (Option.some.inj e1).symm
    match vs, hv, huniq with
    | [], _, huniq => exact ⟨fun e => (by cases e), fun ⟨_, ns, _, h, _⟩ => by cases huniq _ h⟩
    | [_], _, huniq => exact ⟨fun e => (by cases e), fun ⟨_, ns, _, h, _⟩ => by cases huniq _ h⟩
    | N' :: K' :: rest, hv, huniq =>
      have hpos : 0 < N' ∧ 0 < K' ∧ ∀ x ∈ rest, 0 < x := by
        cases hv with
        | cons h1 h => cases h with
          | cons h2 h =>
            exact ⟨h1.2, h2.2, h.pos⟩
      unfold shiftCheck
      dsimp only
      have hperm := isort_perm (fun a b => decide (a < b)) rest
      have hsort := isort_nat_sorted rest
      constructor
      · intro e
        split at e
        · cases e
        · rename_i h1
          split at e
          · cases e
          · split at e
            · cases e
            · rename_i h3
              cases e
              rw [repeats_iff hsort, not_not] at h1
              refine ⟨?_, rest, hperm, hv, (hperm.nodup_iff).1 h1, fun p hp => ?_⟩
              · exact (hsort.and h1).imp fun h => by simp at h; omega
              · by_contra hc
                exact h3 (List.any_eq_true.2 ⟨p, hperm.mem_iff.2 hp, by simp; right; omega⟩)
      · rintro ⟨hlt, ns, hp, hok, hnd, hle⟩
        cases huniq _ hok
        have hpat : isort (fun a b => decide (a < b)) rest = pattern := isort_nat_perm hp.symm hlt
        rw [hpat, if_neg (by
          rw [repeats_iff (by rw [← hpat]; exact hsort), not_not]; exact (hp.nodup_iff).2 hnd), if_neg (by omega), if_neg (by
          rw [List.any_eq_true]
          rintro ⟨x, hx, h⟩
          have h1 := hle x (hp.mem_iff.1 hx)
          have h2 := hpos.2.2 x (hp.mem_iff.1 hx)
          simp at h; omega)]
  unfold optBshift
  refine ⟨fun N K pattern => ?_, fun h => ?_, fun ⟨vs, hv⟩ h => ?_⟩
  · cases e : mapOpt positiveInt as with
    | none =>
      refine ⟨fun e => by simp [typed, Parsed.andThen] at e, fun ⟨_, ns, _, h, _⟩ => ?_⟩
      rw [posMany_iff.2 h] at e; cases e
    | some vs => exact (checked_ok.trans (core (posMany_iff.1 e) N K pattern))
  · cases e : mapOpt positiveInt as with
    | none => rfl
    | some vs => exact absurd ⟨vs, posMany_iff.1 e⟩ h
  · rw [posMany_iff.2 hv]
    refine checked_crash.2 fun ⟨N, K, pattern⟩ e => ?_
    obtain ⟨_, ns, _, hok⟩ := (core hv N K pattern).1 e
    exact h ⟨N, K, ns, hok⟩

/-! ### The graphs the accepted options lead to -/

theorem ncard_filter_fst {es : List (Nat × Nat)} (hn : es.Nodup) (u : Nat) : (es.filter fun e => decide (e.1 = u)).length = {v | (u, v) ∈ es}.ncard := by
  have h1 : ((es.filter fun e => decide (e.1 = u)).map Prod.snd).Nodup := by
    refine (hn.filter _).map_on ?_
    rintro ⟨a, b⟩ ha ⟨c, d⟩ hc h
    simp at ha hc h
    rw [ha.2, hc.2, h]
  have h2 : {v | (u, v) ∈ es} = ↑((es.filter fun e => decide (e.1 = u)).map Prod.snd).toFinset := by
    ext v
    simp
  rw [h2, Set.ncard_coe_finset, List.toFinset_card_of_nodup h1, List.length_map]

theorem ncard_filter_snd {es : List (Nat × Nat)} (hn : es.Nodup) (v : Nat) : (es.filter fun e => decide (e.2 = v)).length = {u | (u, v) ∈ es}.ncard := by
  have h1 : ((es.filter fun e => decide (e.2 = v)).map Prod.fst).Nodup := by
    refine (hn.filter _).map_on ?_
    rintro ⟨a, b⟩ ha ⟨c, d⟩ hc h
    simp at ha hc h
    rw [ha.2, hc.2, h]
  have h2 : {u | (u, v) ∈ es} = ↑((es.filter fun e => decide (e.2 = v)).map Prod.fst).toFinset := by
    ext v
    simp
  rw [h2, Set.ncard_coe_finset, List.toFinset_card_of_nodup h1, List.length_map]

theorem ncard_list {l : List Nat} (hn : l.Nodup) : {v | v ∈ l}.ncard = l.length := by
  have : {v | v ∈ l} = ↑l.toFinset := by ext v; simp
  rw [this, Set.ncard_coe_finset, List.toFinset_card_of_nodup hn]

/-- A graph as described, from a source without modifications. -/
def BipSource.Yields (s : BipSource) (g : BiGraph) : Prop :=
  ∃ L R E, s.Describes L R E ∧ g.edges.Nodup ∧ g.left = L ∧ g.right = R ∧ ∀ u v, (u, v) ∈ g.edges ↔ E u v

theorem obtain_source {s : BipSource} (hs : s.Legal) {L R : List Nat} {E : Nat → Nat → Prop} (hd : s.Describes L R E) :
    (∃ G, obtainBip { source := s } = pure G ∧ s.Yields G.toBip) ∨ (s.IsRegular ∧ obtainBip { source := s } = raise .recursionError) := by
  have hl : BipArgs.Legal { source := s } := ⟨hs, by rintro _ ⟨⟩, by rintro _ ⟨⟩⟩
  rcases source_ok hs with ⟨hno, _⟩ | ⟨e, hr⟩ | _
  · exact absurd hd (hno L R E)
  · exact .inr ⟨hr, by unfold obtainBip BipArgs.planted; rw [e, M.raise_bind, M.raise_bind]⟩
  · rename_i h
    rcases C86_obtain_bipartite hl with ⟨h1, _⟩ | ⟨G, e, h, hP, hg⟩ | ⟨h1, _⟩ | h1
    · obtain ⟨L', R', E', G, hd', e, hG, hE⟩ := h
      rcases h1 with h1 | ⟨_, _, _, h2, _⟩
      · rcases bip_planted hl hd' e hG hE with ⟨_, e1⟩ | ⟨H, _, _, hP⟩
        · exfalso
          have : BipArgs.planted { source := s } = pure G := by unfold BipArgs.planted; rw [e, M.pure_bind]
          rw [this] at e1; cases e1
        · exact absurd ⟨_, hP⟩ h1
      · cases h2
    · obtain ⟨L', R', E', hd', _, _, e1, e2, _, h4⟩ := hP
      refine .inl ⟨G, e, L', R', E', hd', hg.2.1, by rw [hg.2.2.1, e1], by rw [hg.2.2.2.1, e2], fun u v => ?_⟩
      rw [hg.2.2.2.2.1 rfl (u, v), h4]
      simp
    · exact absurd rfl h1
    · exact .inr h1

/-- **C91, `--bd`, the graph.** With accepted numbers and draws as `random.sample` makes them there is a graph, and every left vertex has exactly `d` neighbours. -/
theorem C91_bd_graph {a b c : Str} {l r d : Nat} (h : optBd a b c = .ok (l, r, d)) {smp : Nat → List Nat}
    (hs : ∀ u < l, (smp u).Nodup ∧ (smp u).length = min r d ∧ ∀ v ∈ smp u, l ≤ v ∧ v < l + r) :
    ∃ G, obtainBip { source := .bd l r d smp } = pure G ∧ G.toBip.left = List.range l ∧ G.toBip.right = rightSide l r ∧
      ∀ u < l, G.toBip.degL u = d := by
  obtain ⟨_, _, _, hdr⟩ := ((C91_bd a b c).1 l r d).1 h
  have hd : (BipSource.bd l r d smp).Describes (List.range l) (rightSide l r) (fun u v => u < l ∧ v ∈ smp u) := ⟨rfl, rfl, fun _ _ => Iff.rfl⟩
  rcases obtain_source (s := .bd l r d smp) hs hd with ⟨G, e, L, R, E, ⟨rfl, rfl, hE⟩, hnd, h1, h2, h3⟩ | ⟨h1, _⟩
  · refine ⟨G, e, h1, h2, fun u hu => ?_⟩
    unfold BiGraph.degL
    rw [ncard_filter_fst hnd]
    have : {v | (u, v) ∈ G.toBip.edges} = {v | v ∈ smp u} := by ext v; simp [h3, hE, hu]
    rw [this, ncard_list (hs u hu).1, (hs u hu).2.1, Nat.min_eq_right hdr]
  · exact h1.elim

/-- **C91, `--bregular`, the graph.** With accepted numbers the generator does not refuse them: it gives a graph whose degrees are at most `d` on the left and
`l·d/r` on the right (they may be less, see `C74_regular_refuted`), or ends in `RecursionError`. -/
theorem C91_bregular_graph {a b c : Str} {l r d : Nat} (h : optBregular a b c = .ok (l, r, d)) {pick : Nat → Nat → Nat → Nat × Nat} {depth : Nat}
    (hp : ∀ j, PickOK (l * d) (pick j)) :
    obtainBip { source := .bregular l r d pick depth } = raise .recursionError ∨
    ∃ G, obtainBip { source := .bregular l r d pick depth } = pure G ∧ G.toBip.left = List.range l ∧ G.toBip.right = rightSide l r ∧
      (∀ u, G.toBip.degL u ≤ d) ∧ ∀ v, G.toBip.degR v ≤ l * d / r := by
  obtain ⟨_, hr, _, hdr, hdvd⟩ := ((C91_bregular a b c).1 l r d).1 h
  have hd : (BipSource.bregular l r d pick depth).Describes (List.range l) (rightSide l r) (fun _ _ => False) :=
    ⟨hdvd, rfl, rfl, by rintro _ _ ⟨⟩, by simp, by simp⟩
  rcases obtain_source (s := .bregular l r d pick depth) ⟨hr.2, hp⟩ hd with ⟨G, e, L, R, E, ⟨_, rfl, rfl, _, hE1, hE2⟩, hnd, h1, h2, h3⟩ | ⟨_, e⟩
  · refine .inr ⟨G, e, h1, h2, fun u => ?_, fun v => ?_⟩
    · unfold BiGraph.degL
      rw [ncard_filter_fst hnd]
      simp only [h3]; exact hE1 u
    · unfold BiGraph.degR
      rw [ncard_filter_snd hnd]
      simp only [h3]; exact hE2 v
  · exact .inl e

/-- **C91, `--bcomplete`, the graph.** -/
theorem C91_bcomplete_graph {a b : Str} {l r : Nat} (_ : optTwo a b = .ok (l, r)) :
    ∃ G, obtainBip { source := .bcomplete l r } = pure G ∧ G.toBip.left = List.range l ∧ G.toBip.right = rightSide l r ∧
      ∀ u v, (u, v) ∈ G.toBip.edges ↔ u < l ∧ l ≤ v ∧ v < l + r := by
  have hd : (BipSource.bcomplete l r).Describes (List.range l) (rightSide l r) (fun u v => u ∈ List.range l ∧ v ∈ rightSide l r) := ⟨rfl, rfl, fun _ _ => Iff.rfl⟩
  rcases obtain_source (s := .bcomplete l r) trivial hd with ⟨G, e, L, R, E, ⟨rfl, rfl, hE⟩, hnd, h1, h2, h3⟩ | ⟨h1, _⟩
  · refine ⟨G, e, h1, h2, fun u v => ?_⟩
    rw [h3, hE]
    unfold rightSide
    simp only [List.mem_range, List.mem_map]
    constructor
    · rintro ⟨h, x, hx, rfl⟩; omega
    · rintro ⟨h, h', h''⟩; exact ⟨h, v - l, by omega, by omega⟩
  · exact h1.elim

theorem shift_target {N K u p v : Nat} (hK : 0 < K) (hu : 1 ≤ u) (hp : 1 ≤ p) :
    (v ∈ (oneTo K).map (N + ·) ∧ (K : Int) ∣ ((v : Int) - N) - ((p : Int) + u - 1)) ↔ v = N + 1 + (p + u - 2) % K := by
  have hlt := Nat.mod_lt (p + u - 2) hK
  constructor
  · rintro ⟨hv, hdvd⟩
    obtain ⟨w, hw, rfl⟩ := List.mem_map.1 hv
    have hw' : 1 ≤ w ∧ w ≤ K := mem_oneTo.1 hw
    have h2 : (K : Int) ∣ ((w - 1 : Nat) : Int) - ((p + u - 2 : Nat) : Int) := by
      have e : (((N + w : Nat) : Int) - N) - ((p : Int) + u - 1) = ((w - 1 : Nat) : Int) - ((p + u - 2 : Nat) : Int) := by omega
      rwa [e] at hdvd
    have h3 : (w - 1) % K = (p + u - 2) % K := by
      have := (Nat.modEq_iff_dvd (n := K) (a := p + u - 2) (b := w - 1)).2 h2
      exact this.symm
    rw [Nat.mod_eq_of_lt (by omega)] at h3
    omega
  · rintro rfl
    refine ⟨List.mem_map.2 ⟨1 + (p + u - 2) % K, ?_, by omega⟩, ?_⟩
    · exact mem_oneTo.2 (by omega)
    · have h2 := (Nat.modEq_iff_dvd (n := K) (a := p + u - 2) (b := (p + u - 2) % K)).1 (Nat.mod_modEq _ _).symm
      have e : ((N + 1 + (p + u - 2) % K : Nat) : Int) - N - ((p : Int) + u - 1) = (((p + u - 2) % K : Nat) : Int) - ((p + u - 2 : Nat) : Int) := by omega
      rw [e]; exact h2

/-- **C91, `--bshift`, the graph.** With accepted numbers there is a graph: vertex `u` on the left is joined to the vertices `u + v₁ - 1, u + v₂ - 1, …` (modulo
the size of the right side), one for each number of the pattern. -/
theorem C91_bshift_graph {as : List Str} {N K : Nat} {pattern : List Nat} (h : optBshift as = .ok (N, K, pattern)) :
    ∃ G, obtainBip { source := .bshift N K pattern } = pure G ∧ G.toBip.left = oneTo N ∧ G.toBip.right = (oneTo K).map (N + ·) ∧
      ∀ u, 1 ≤ u → u ≤ N → G.toBip.degL u = pattern.length ∧
        ∀ v, (u, v) ∈ G.toBip.edges ↔ ∃ p ∈ pattern, v = N + 1 + (p + u - 2) % K := by
  obtain ⟨hlt, ns, hperm, hpos, hnd, hle⟩ := ((C91_bshift as).1 N K pattern).1 h
  have hNK : 0 < N ∧ 0 < K ∧ ∀ p ∈ ns, 0 < p := by
    cases hpos with
    | cons h1 h => cases h with
      | cons h2 h =>
        exact ⟨h1.2, h2.2, h.pos⟩
  have hp : ∀ p ∈ pattern, 1 ≤ p ∧ p ≤ K := fun p hp => ⟨hNK.2.2 p (hperm.mem_iff.1 hp), hle p (hperm.mem_iff.1 hp)⟩
  have hd : (BipSource.bshift N K pattern).Describes (oneTo N) ((oneTo K).map (N + ·))
      (fun u v => u ∈ oneTo N ∧ v ∈ (oneTo K).map (N + ·) ∧ ∃ p ∈ pattern, (K : Int) ∣ ((v : Int) - N) - ((p : Int) + u - 1)) :=
    ⟨hNK.1, hNK.2.1, hp, rfl, rfl, fun _ _ => Iff.rfl⟩
  rcases obtain_source (s := .bshift N K pattern) trivial hd with ⟨G, e, L, R, E, ⟨_, _, _, rfl, rfl, hE⟩, hndE, h1, h2, h3⟩ | ⟨h1, _⟩
  · refine ⟨G, e, h1, h2, fun u hu1 huN => ?_⟩
    have hmem : ∀ v, (u, v) ∈ G.toBip.edges ↔ ∃ p ∈ pattern, v = N + 1 + (p + u - 2) % K := by
      intro v
      rw [h3, hE]
      constructor
      · rintro ⟨_, hv, p, hpm, hdv⟩
        exact ⟨p, hpm, (shift_target hNK.2.1 hu1 (hp p hpm).1).1 ⟨hv, hdv⟩⟩
      · rintro ⟨p, hpm, hv⟩
        obtain ⟨hv', hdv⟩ := (shift_target (N := N) hNK.2.1 hu1 (hp p hpm).1).2 hv
        exact ⟨mem_oneTo.2 (by omega), hv', p, hpm, hdv⟩
    refine ⟨?_, hmem⟩
    unfold BiGraph.degL
    rw [ncard_filter_fst hndE]
    have hset : {v | (u, v) ∈ G.toBip.edges} = {v | v ∈ pattern.map fun p => N + 1 + (p + u - 2) % K} := by
      ext v; rw [Set.mem_setOf_eq, hmem, Set.mem_setOf_eq, List.mem_map]
      exact ⟨fun ⟨p, h, e⟩ => ⟨p, h, e.symm⟩, fun ⟨p, h, e⟩ => ⟨p, h, e.symm⟩⟩
    rw [hset, ncard_list, List.length_map]
    refine ((hperm.nodup_iff).2 hnd).map_on fun p hpm q hqm he => ?_
    have h1 := hp p hpm
    have h2 := hp q hqm
    have hm : (p + u - 2) % K = (q + u - 2) % K := by omega
    have hmod : (p - 1) + (u - 1) ≡ (q - 1) + (u - 1) [MOD K] := by
      have e1 : (p - 1) + (u - 1) = p + u - 2 := by omega
      have e2 : (q - 1) + (u - 1) = q + u - 2 := by omega
      rw [e1, e2]; exact hm
    have h4 := Nat.ModEq.add_right_cancel' _ hmod
    unfold Nat.ModEq at h4
    rw [Nat.mod_eq_of_lt (by omega), Nat.mod_eq_of_lt (by omega)] at h4
    omega
  · exact h1.elim

/-! ### Examples -/

example : ∃ G, obtainBip { source := .bd 2 3 2 fun _ => [2, 4] } = pure G ∧ G.toBip.left = List.range 2 ∧ G.toBip.right = rightSide 2 3 ∧
    ∀ u < 2, G.toBip.degL u = 2 :=
  C91_bd_graph (a := "2".toList) (b := "3".toList) (c := "2".toList) (by decide +kernel) (by decide)

example : optBd "2".toList "3".toList "2".toList = .ok (2, 3, 2) := by decide +kernel
example : optBd "2".toList "3".toList "4".toList = .crash .attributeError := by decide +kernel
example : optBm "2".toList "0".toList "4".toList = .usage := by decide +kernel
example : optBregular "3".toList "x".toList "2".toList = .crash .attributeError := by decide +kernel
example : optBregular "4".toList "2".toList "1".toList = .ok (4, 2, 1) := by decide +kernel
example : optBshift ["3".toList, "4".toList, "3".toList, "1".toList] = .ok (3, 4, [1, 3]) := by decide +kernel
example : optBshift ["3".toList, "4".toList, "3".toList, "3".toList] = .crash .attributeError := by decide +kernel
example : optGnp (fun _ => some .nan) "5".toList "nan".toList = .ok (5, .nan) := by decide +kernel

end NDP.Cnfgen
