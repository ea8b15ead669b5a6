import Verif.Py
/-
  Model of /repo/tools/sabry_cnf_gen.hs, the generator of multiplier formulas (a Haskell program).
  A circuit description is polymorphic in the Haskell source (`Circuit m d => ... -> m a`) and is run in two ways, by
  simulation and symbolically.  Here it is a tree `Circ` of primitive gates, with the two interpretations defined on it.
  Comments (`addDesc` of half and full adders, `Com`) are never printed (710-711, `filter cnf_pred`), and left out.
-/
namespace NDP.Gen

/-- `sabry_cnf_gen.hs` 54 (`data Bit`). -/
inductive Bit where
  | const (b : Bool)
  | var (v : Nat)
  | nvar (v : Nat)
  deriving DecidableEq, Repr

/-- 62-64. -/
def low : Bit := .const false
/-- 62-64. -/
def high : Bit := .const true

/-- 66-69 (`notBit`). -/
def notBit : Bit → Bit
  | .const b => .const (!b)
  | .var v => .nvar v
  | .nvar v => .var v

/-- Circuits (the class `Circuit` of 36-41 and `newBitVar` of 178): each constructor is a primitive followed by the rest
of the circuit.  `error` is a Haskell error, a failed pattern match or an endless recursion. -/
inductive Circ (α : Type) where
  | ret (x : α)
  | error
  | newVar (k : Bit → Circ α)
  | not1 (a : Bit) (k : Bit → Circ α)
  | and2 (a b : Bit) (k : Bit → Circ α)
  | or2 (a b : Bit) (k : Bit → Circ α)
  | xor2 (a b : Bit) (k : Bit → Circ α)
  | mux3 (s a b : Bit) (k : Bit → Circ α)
  | assert1 (a : Bit) (b : Bool) (k : Circ α)

namespace Circ
variable {α β γ : Type}

/-- `>>=`. -/
def bind : Circ α → (α → Circ β) → Circ β
  | ret x, f => f x
  | error, _ => error
  | newVar k, f => newVar fun r => bind (k r) f
  | not1 a k, f => not1 a fun r => bind (k r) f
  | and2 a b k, f => and2 a b fun r => bind (k r) f
  | or2 a b k, f => or2 a b fun r => bind (k r) f
  | xor2 a b k, f => xor2 a b fun r => bind (k r) f
  | mux3 s a b k, f => mux3 s a b fun r => bind (k r) f
  | assert1 a b k, f => assert1 a b (bind k f)

instance : Monad Circ where
  pure := ret
  bind := bind

/-- `mapM`. -/
def mapC (f : α → Circ β) : List α → Circ (List β)
  | [] => pure []
  | x :: xs => do
    let y ← f x
    let ys ← mapC f xs
    pure (y :: ys)

/-- `foldM`. -/
def foldC (f : β → α → Circ β) (b : β) : List α → Circ β
  | [] => pure b
  | x :: xs => do
    let b ← f b x
    foldC f b xs

end Circ

/-- The primitives as functions. -/
def newBitVar : Circ Bit := .newVar .ret
def not1 (a : Bit) : Circ Bit := .not1 a .ret
def and2 (a b : Bit) : Circ Bit := .and2 a b .ret
def or2 (a b : Bit) : Circ Bit := .or2 a b .ret
def xor2 (a b : Bit) : Circ Bit := .xor2 a b .ret
def mux3 (s a b : Bit) : Circ Bit := .mux3 s a b .ret
def assert1 (a : Bit) (b : Bool) : Circ Unit := .assert1 a b (.ret ())

/-! ### standard interpretation (129-166) -/

/-- 157-166: the gates on known bits; a symbolic bit is a failed pattern match. -/
def stdNot : Bit → Option Bit
  | .const x => some (.const (!x))
  | _ => none
def stdAnd : Bit → Bit → Option Bit
  | .const x, .const y => some (.const (x && y))
  | _, _ => none
def stdOr : Bit → Bit → Option Bit
  | .const x, .const y => some (.const (x || y))
  | _, _ => none
def stdXor : Bit → Bit → Option Bit
  | .const x, .const y => some (.const (x != y))
  | _, _ => none
def stdMux : Bit → Bit → Bit → Option Bit
  | .const false, a, _ => some a
  | .const true, _, b => some b
  | _, _, _ => none

/-- 132-166 (`simulate` in the monad `Std`). -/
def simulate {α : Type} : Circ α → Option α
  | .ret x => some x
  | .error => none
  | .newVar _ => none
  | .not1 a k => match stdNot a with | some r => simulate (k r) | none => none
  | .and2 a b k => match stdAnd a b with | some r => simulate (k r) | none => none
  | .or2 a b k => match stdOr a b with | some r => simulate (k r) | none => none
  | .xor2 a b k => match stdXor a b with | some r => simulate (k r) | none => none
  | .mux3 s a b k => match stdMux s a b with | some r => simulate (k r) | none => none
  | .assert1 (.const x) y k => if x = y then simulate k else none
  | .assert1 _ _ _ => none

/-! ### symbolic interpretation (168-272) and the CNF description of gates (274-349) -/

/-- A clause of bits (`CNFOr`). -/
abbrev BCl := List Bit

/-- 293-301 (`and2_desc`). -/
def andCls (v : Nat) (a b : Bit) : List BCl :=
  [[a, b, .nvar v], [a, notBit b, .nvar v], [notBit a, b, .nvar v], [notBit a, notBit b, .var v]]

/-- 303-311 (`or2_desc`). -/
def orCls (v : Nat) (a b : Bit) : List BCl :=
  [[a, b, .nvar v], [a, notBit b, .var v], [notBit a, b, .var v], [notBit a, notBit b, .var v]]

/-- 313-321 (`xor2_desc`). -/
def xorCls (v : Nat) (a b : Bit) : List BCl :=
  [[a, b, .nvar v], [a, notBit b, .var v], [notBit a, b, .var v], [notBit a, notBit b, .nvar v]]

/-- 323-332 (`mux3_desc`). -/
def muxCls (v : Nat) (s a b : Bit) : List BCl :=
  [[s, a, .nvar v], [s, notBit a, .var v], [notBit s, b, .nvar v], [notBit s, notBit b, .var v]]

/-- 285-291 (`assert1_desc`). -/
def assertCls (a : Bit) (b : Bool) : List BCl := if b then [[a]] else [[notBit a]]

/-- 217-224 (`and2`): the result, the next free variable, the clauses. -/
def symAnd (n : Nat) : Bit → Bit → Bit × Nat × List BCl
  | .const false, _ => (.const false, n, [])
  | _, .const false => (.const false, n, [])
  | .const true, b => (b, n, [])
  | b, .const true => (b, n, [])
  | a, b => (.var n, n + 1, andCls n a b)

/-- 226-233 (`or2`). -/
def symOr (n : Nat) : Bit → Bit → Bit × Nat × List BCl
  | .const true, _ => (.const true, n, [])
  | _, .const true => (.const true, n, [])
  | .const false, b => (b, n, [])
  | b, .const false => (b, n, [])
  | a, b => (.var n, n + 1, orCls n a b)

/-- 235-242 (`xor2`). -/
def symXor (n : Nat) : Bit → Bit → Bit × Nat × List BCl
  | .const true, b => (notBit b, n, [])
  | b, .const true => (notBit b, n, [])
  | .const false, b => (b, n, [])
  | b, .const false => (b, n, [])
  | a, b => (.var n, n + 1, xorCls n a b)

/-- 248-261 (`mux3`). -/
def symMux (n : Nat) : Bit → Bit → Bit → Bit × Nat × List BCl
  | .const false, a, _ => (a, n, [])
  | .const true, _, b => (b, n, [])
  | _, .const false, .const false => (.const false, n, [])
  | s, .const false, .const true => (s, n, [])
  | s, .const true, .const false => (notBit s, n, [])
  | _, .const true, .const true => (.const true, n, [])
  | s, .const false, b => symAnd n s b
  | s, .const true, b => symOr n b (notBit s)
  | s, a, .const false => symAnd n (notBit s) a
  | s, a, .const true => symOr n a s
  | s, a, b => (.var n, n + 1, muxCls n s a b)

/-- 184-272 (the monad `Sym`): the result, the next free variable, the clauses in order.  (The Haskell state is the list
of all unused variables; it is represented by its head.) -/
def symbolic {α : Type} : Circ α → Nat → Option (α × Nat × List BCl)
  | .ret x, n => some (x, n, [])
  | .error, _ => none
  | .newVar k, n => symbolic (k (.var n)) (n + 1)
  | .not1 a k, n => symbolic (k (notBit a)) n                                       -- 214-215
  | .and2 a b k, n =>
    (symbolic (k (symAnd n a b).1) (symAnd n a b).2.1).map fun r => (r.1, r.2.1, (symAnd n a b).2.2 ++ r.2.2)
  | .or2 a b k, n =>
    (symbolic (k (symOr n a b).1) (symOr n a b).2.1).map fun r => (r.1, r.2.1, (symOr n a b).2.2 ++ r.2.2)
  | .xor2 a b k, n =>
    (symbolic (k (symXor n a b).1) (symXor n a b).2.1).map fun r => (r.1, r.2.1, (symXor n a b).2.2 ++ r.2.2)
  | .mux3 s a b k, n =>
    (symbolic (k (symMux n s a b).1) (symMux n s a b).2.1).map fun r => (r.1, r.2.1, (symMux n s a b).2.2 ++ r.2.2)
  | .assert1 (.const x) y k, n => if x = y then symbolic k n else none              -- 244-245
  | .assert1 a b k, n => (symbolic k n).map fun r => (r.1, r.2.1, assertCls a b ++ r.2.2)   -- 246

/-! ### lists of bits -/

/-- 90-94 (`zipPad`). -/
def zipPad : List Bit → List Bit → List (Bit × Bit)
  | [], ys => ys.map fun y => (low, y)
  | x :: xs, [] => (x, low) :: zipPad xs []
  | x :: xs, y :: ys => (x, y) :: zipPad xs ys

/-- `l` filled up with `low` to length `n`, or cut (`take n (l ++ repeat low)`). -/
def padTo (n : Nat) (l : List Bit) : List Bit := l.take n ++ List.replicate (n - l.length) low

/-- 96-100 (`zip3Pad`). -/
def zip3Pad (xs ys zs : List Bit) : List (Bit × Bit × Bit) :=
  let n := max xs.length (max ys.length zs.length)
  (padTo n xs).zip ((padTo n ys).zip (padTo n zs))

/-- 104-109 (`listby2`). -/
def listby2 {α : Type} : List α → List (α × α) × List α
  | a :: b :: l => ((a, b) :: (listby2 l).1, (listby2 l).2)
  | l => ([], l)

/-- 111-117 (`listby3`). -/
def listby3 {α : Type} : List α → List (α × α × α) × List α
  | a :: b :: c :: l => ((a, b, c) :: (listby3 l).1, (listby3 l).2)
  | l => ([], l)

/-- 361-362 (`shift`). -/
def shift (n : Nat) (bs : List Bit) : List Bit := List.replicate n low ++ bs

/-! ### adders -/

/-- 377-382 (`halfAdd`): carry, sum. -/
def halfAdd (a b : Bit) : Circ (Bit × Bit) := do
  let carry ← and2 a b
  let sum ← xor2 a b
  pure (carry, sum)

/-- 389-395 (`fullAdd`): carry out, sum. -/
def fullAdd (carryIn a b : Bit) : Circ (Bit × Bit) := do
  let (carry1, sum1) ← halfAdd a b
  let (carry2, sum) ← halfAdd carryIn sum1
  let carryOut ← xor2 carry1 carry2
  pure (carryOut, sum)

/-- 398-401 (`fullAddBlock`). -/
def fullAddBlock (st : Bit × List Bit) (ab : Bit × Bit) : Circ (Bit × List Bit) := do
  let (carryOut, sum) ← fullAdd st.1 ab.1 ab.2
  pure (carryOut, st.2 ++ [sum])

/-- 410-413 (`n_adder_carry`): sums, carry out. -/
def nAdderCarry (as bs : List Bit) (carryIn : Bit) : Circ (List Bit × Bit) := do
  let (carryOut, sums) ← Circ.foldC fullAddBlock (carryIn, []) (zipPad as bs)
  pure (sums, carryOut)

/-- 407. -/
abbrev Adder := List Bit → List Bit → Circ (List Bit)

/-- 415-418 (`n_adder`). -/
def nAdder : Adder := fun as bs => do
  let (sum, carryOut) ← nAdderCarry as bs low
  pure (sum ++ [carryOut])

/-- 439-441 (`w3_unit`): the carries, the sums. -/
def w3Unit (g : List Bit × List Bit × List Bit) : Circ (List Bit × List Bit) := do
  let r ← Circ.mapC (fun (p : Bit × Bit × Bit) => fullAdd p.1 p.2.1 p.2.2) (zip3Pad g.1 g.2.1 g.2.2)
  pure (r.map Prod.fst, r.map Prod.snd)

/-- 429-441 (`w_adder`).  The first argument bounds the number of rounds; `wAdder` starts with enough (each round
turns three rows into two), so that the case `0` is never met with three rows or more. -/
def wAdderN (adder : Adder) : Nat → List (List Bit) → Circ (List Bit)
  | _, [] => pure []
  | _, [as] => pure as
  | _, [as, bs] => adder as bs
  | 0, _ => .error
  | f + 1, xss => do
    let newGroups ← Circ.mapC w3Unit (listby3 xss).1
    wAdderN adder f ((newGroups.map fun p => low :: p.1) ++ newGroups.map Prod.snd ++ (listby3 xss).2)

/-- 429-441 (`w_adder`). -/
def wAdder (adder : Adder) (xss : List (List Bit)) : Circ (List Bit) := wAdderN adder xss.length xss

/-- 469-471 (`multiplex_n`). -/
def multiplexN (c : Bit) (xs ys : List Bit) : Circ (List Bit) :=
  Circ.mapC (fun (p : Bit × Bit) => mux3 c p.1 p.2) (xs.zip ys)

/-- The tuples of the fast adder: sum, sum with carry, generate, propagate. -/
structure FUnit where
  s : List Bit
  t : List Bit
  g : Bit
  p : Bit

/-- 487-493 (`fast_adder_unit`). -/
def fastAdderUnit (ab : Bit × Bit) : Circ FUnit := do
  let s ← xor2 ab.1 ab.2
  let t ← not1 s
  let g ← and2 ab.1 ab.2
  let p ← or2 ab.1 ab.2
  pure { s := [s], t := [t], g := g, p := p }

/-- 509-520 (`stage`). -/
def fastStage (lh : FUnit × FUnit) : Circ FUnit := do
  let newS ← multiplexN lh.1.g lh.2.s lh.2.t
  let newT ← multiplexN lh.1.p lh.2.s lh.2.t
  let a ← or2 lh.2.g lh.2.p
  let b ← or2 lh.2.g lh.1.p
  let p ← and2 a b
  let a ← or2 lh.2.g lh.2.p
  let b ← or2 lh.2.g lh.1.g
  let g ← and2 a b
  pure { s := lh.1.s ++ newS, t := lh.1.t ++ newT, g := g, p := p }

/-- 501-507 (`apply_stages`, `apply_stage`).  The first argument bounds the number of rounds (see `fastAdder`); without
any unit the Haskell function calls itself forever. -/
def applyStages : Nat → List FUnit → Circ FUnit
  | _, [u] => pure u
  | 0, _ => .error
  | f + 1, us => do
    let wss ← Circ.mapC fastStage (listby2 us).1
    applyStages f (wss ++ (listby2 us).2)

/-- 495-499 (`fast_adder`). -/
def fastAdder : Adder := fun as bs => do
  let us ← Circ.mapC fastAdderUnit (zipPad as bs)
  let u ← applyStages us.length us
  pure (u.s ++ [u.g])

/-- 542-552 (`subt`). -/
def subt (xs ys : List Bit) : Circ (List Bit) := do
  let size := max xs.length ys.length
  let zs ← Circ.mapC not1 (padTo size ys)
  let carryIn ← not1 low
  let (sum, carryOut) ← nAdderCarry (padTo size xs) zs carryIn
  assert1 carryOut true
  pure sum

/-! ### multipliers -/

/-- 562. -/
abbrev Multiplier := List Bit → List Bit → Circ (List Bit)

/-- The rows of partial products with their offsets (662-663: `offsets` is `[[], [low], [low, low], ...]`). -/
def shiftRows (i : Nat) : List (List Bit) → List (List Bit)
  | [] => []
  | r :: rs => shift i r :: shiftRows (i + 1) rs

/-- 659-664 (`wallace_multiplier`). -/
def wallace (adder : Adder) : Multiplier := fun as bs => do
  let rows ← Circ.mapC (fun b => Circ.mapC (fun a => and2 a b) as) bs
  wAdder adder (shiftRows 0 rows)

/-- 639-641 (`block`). -/
def block (x y carryIn sumIn : Bit) : Circ (Bit × Bit) := do
  let xy ← and2 x y
  fullAdd carryIn sumIn xy

/-- `zipWithM (\ fa (c,s) -> fa (c,s)) row inputs` (650-653) for the row of `b`: the blocks of `as` with their inputs. -/
def csRow (b : Bit) (as : List Bit) (ins : List (Bit × Bit)) : Circ (List (Bit × Bit)) :=
  Circ.mapC (fun (p : Bit × Bit × Bit) => block p.1 b p.2.1 p.2.2) (as.zip ins)

/-- 643-654 (`middle_loop`): `cs`, previous results (carries and sums), rows to do. -/
def csLoop (as : List Bit) : List Bit → List (Bit × Bit) → List Bit → Circ (List Bit × List (Bit × Bit))
  | cs, prev, [] => pure (cs, prev)
  | cs, prev, b :: bs =>
    match prev.map Prod.snd with
    | [] => .error                                                        -- `head []`
    | s :: ss => do
      let cur ← csRow b as ((prev.map Prod.fst).zip (ss ++ [low]))
      csLoop as (cs ++ [s]) cur bs

/-- 627-654 (`carry_save_multiplier`). -/
def carrySave (adder : Adder) : Multiplier := fun as bs =>
  match bs with
  | [] => .error                                                          -- `head []`
  | b :: bs => do
    let first ← csRow b as (as.map fun _ => (low, low))
    let (cs, last) ← csLoop as [] first bs
    match last.map Prod.snd with
    | [] => .error
    | s :: ss => do
      let rest ← adder (last.map Prod.fst) (ss ++ [low])
      pure (cs ++ [s] ++ rest)

/-- 593-621 (`recursive_multiplier`).  The first argument bounds the depth of the recursion; `recursive` starts with
enough of it (the width shrinks at each call when `bound` is at least 3). -/
def recursiveN (bound : Nat) (adder : Adder) : Nat → Multiplier
  | 0, _, _ => .error
  | f + 1, xs, ys =>
    let n := max xs.length ys.length
    let half := (n + 1) / 2
    if bound ≥ n then wallace adder xs ys
    else
      let exs := padTo n xs
      let eys := padTo n ys
      if ys.length ≤ half then do
        let p3 ← recursiveN bound adder f (exs.take half) (eys.take half)
        let p2 ← recursiveN bound adder f (exs.drop half) (eys.take half)
        adder (shift half p2) p3
      else do
        let p1 ← recursiveN bound adder f (exs.drop half) (eys.drop half)
        let p3 ← recursiveN bound adder f (exs.take half) (eys.take half)
        let asbs ← adder (exs.drop half) (exs.take half)
        let csds ← adder (eys.drop half) (eys.take half)
        let p2p1p3 ← recursiveN bound adder f asbs csds
        let p2p3 ← subt p2p1p3 p1
        let p2 ← subt p2p3 p3
        let s1 ← adder (shift (half * 2) p1) (shift half p2)
        adder s1 p3

/-- 593-621 (`recursive_multiplier`). -/
def recursive (bound : Nat) (adder : Adder) : Multiplier := fun xs ys =>
  recursiveN bound adder (max xs.length ys.length + 1) xs ys

/-! ### the program -/

/-- 72-74 (`int2bits`), least significant bit first.  `fuel ≥ n`. -/
def int2bitsAux : Nat → Nat → List Bool
  | 0, _ => []
  | f + 1, n => if n = 0 then [] else decide (n % 2 = 1) :: int2bitsAux f (n / 2)

/-- 72-74 (`int2bits`), as truth values. -/
def int2bits (n : Nat) : List Bool := int2bitsAux n n

/-- 368-370 (`assert_n`): `zipWithM_ assert bs (vs ++ repeat False)`. -/
def assertN : List Bit → List Bool → Circ Unit
  | [], _ => pure ()
  | b :: bs, [] => do assert1 b false; assertN bs []
  | b :: bs, v :: vs => do assert1 b v; assertN bs vs

/-- 584-587 (`keepBitVar`). -/
def keepBitVar : Bit → Bool
  | .const _ => false
  | _ => true

/-- 570-581 (`sym_multiplier`): the two inputs and the output bits. -/
def multCircuit (m : Multiplier) (out : List Bool) : Circ ((List Bit × List Bit) × List Bit) := do
  let size := out.length
  let as ← Circ.mapC (fun (_ : Nat) => newBitVar) (List.range (size - 1))
  let bs ← Circ.mapC (fun (_ : Nat) => newBitVar) (List.range ((size + 1) / 2))
  let cs' ← m as bs
  let cs := cs'.filter keepBitVar
  assertN cs out
  pure ((as, bs), cs)

/-- 684-687: the names of the adders. -/
inductive AdderName where | nbit | fast
  deriving DecidableEq, Repr

/-- 688-693: the names of the multipliers. -/
inductive MultName where | carrySave | wallace | recursive
  deriving DecidableEq, Repr

/-- 684-687. -/
def AdderName.adder : AdderName → Adder
  | nbit => nAdder
  | fast => fastAdder

/-- 671-672 (`bound`). -/
def bound : Nat := 20

/-- 688-693. -/
def MultName.mult : MultName → Adder → Multiplier
  | carrySave => Gen.carrySave
  | wallace => Gen.wallace
  | recursive => Gen.recursive bound

/-- 56-60 (`show` of a bit). -/
def showBit : Bit → Str
  | .const true => "True".toList
  | .const false => "False".toList
  | .var v => natStr v
  | .nvar v => '-' :: natStr v

/-- The number printed for a variable or a negated variable (56-60).  Constants are printed as words and get no number
here; no clause of a generated formula contains one. -/
def bitInt : Bit → Int
  | .const _ => 0
  | .var v => (v : Int)
  | .nvar v => -(v : Int)

/-- The clauses of the generated formula (674-712), as numbers. -/
def genCnf (a : AdderName) (m : MultName) (n : Nat) : Option (List (List Int)) :=
  (symbolic (multCircuit (m.mult a.adder) (int2bits n)) 1).map fun r => r.2.2.map fun c => c.map bitInt

/-- 347-349 (`show` of a clause). -/
def showCl (c : BCl) : Str := joinWith [' '] (c.map showBit) ++ " 0".toList

/-- `show` of a list of bits. -/
def showBits (l : List Bit) : Str := ['['] ++ joinWith [','] (l.map showBit) ++ [']']

/-- 684-693: names as written on the command line. -/
def AdderName.str : AdderName → Str
  | nbit => "n-bit".toList
  | fast => "fast".toList

def MultName.str : MultName → Str
  | carrySave => "carry-save".toList
  | wallace => "wallace".toList
  | recursive => "recursive".toList

/-- 674-712 (`main`): the lines of the generated text; `none` is an error. -/
def genLines (a : AdderName) (m : MultName) (n : Nat) : Option (List Str) :=
  if 1 < n then
    match symbolic (multCircuit (m.mult a.adder) (int2bits n)) 1 with
    | none => none
    | some (r, next, cls) =>
      some (["c Problem generated from ".toList ++ m.str ++ "[".toList ++ a.str ++ "] multiplication circuit".toList,
             "c by Paul Purdom and Amr Sabry".toList,
             "c".toList,
             "c Circuit for product = ".toList ++ natStr n ++ " ".toList ++
               showBits ((int2bits n).reverse.map Bit.const),
             "c Variables for output [msb,...,lsb]: ".toList ++ showBits r.2.reverse,
             "c Variables for first input [msb,...,lsb]: ".toList ++ showBits r.1.1.reverse,
             "c Variables for second input [msb,...,lsb]: ".toList ++ showBits r.1.2.reverse,
             "c".toList,
             "c".toList,
             "p cnf ".toList ++ natStr (next - 1) ++ " ".toList ++ natStr cls.length]
            ++ cls.map showCl)
  else none

/-- The generated text: every line ends with a newline. -/
def genText (a : AdderName) (m : MultName) (n : Nat) : Option Str :=
  (genLines a m n).map fun ls => ls.flatMap fun l => l ++ ['\n']

end NDP.Gen
