import Verif.Model.Solver
import Verif.Model.Reader
/-
  Model of /repo/Factorizer.py, /repo/Multiply.py, the decoding part of `PatternSolver.solve_set` (585-617) and
  /repo/main.py (`Main`).
-/
namespace NDP
variable {H : Type}

/-- `Factorizer.py` 51-58: the dynamic attributes the preprocessing attaches to the set. -/
structure FactInfo where
  number : Nat          -- `factorized_number`
  numBits : List Int    -- `fact_num_bits`
  len1 : Int            -- `fact1_len`
  len2 : Int            -- `fact2_len`
  deriving DecidableEq, Repr

/-- `Factorizer.py` 40-49: loop over the clauses; state `vars_map`, `factorized_number`, `i`. -/
def factUnits (vm : Dict Int Bool) (num i : Nat) : List Clause → Dict Int Bool × Nat
  | [] => (vm, num)
  | cl :: cls =>
    match cl.raw with
    | [v] => factUnits (vm.set (v.natAbs : Int) (decide (0 < v)))
               (num + (if 0 < v then 1 else 0) * 2 ^ i) (i + 1) cls
    | _ => factUnits vm num i cls

/-- `Factorizer.py` 30-68 (`preprocess_set`); `none` is `return False` (the set is untouched). -/
def factPreprocess (s : SetObj H) : Option (FactInfo × SetObj H) :=
  match s.clauses with
  | [] => none
  | c0 :: _ =>
    match c0.raw with
    | [_, b, c] =>
      let (vm, num) := factUnits [] 0 0 s.clauses
      let len1 : Int := b - 1
      let len2 : Int := (c.natAbs : Int) - b
      let info : FactInfo := { number := num, numBits := vm.keys, len1 := len1, len2 := len2 }
      let vm := if num % 2 = 1 then (vm.set 1 true).set (len1 + 1) true else vm
      some (info, ({ s with evaluatedVars := vm } : SetObj H).substituteVars vm)
    | _ => none

/-- Binary digits of `n`, least significant first; `bin(n)[2:][::-1]` (`bin(0)` is `'0b0'`).  `fuel ≥ n`. -/
def binAux : Nat → Nat → List Bool
  | 0, n => [decide (n % 2 = 1)]
  | f + 1, n => if n < 2 then [decide (n % 2 = 1)] else decide (n % 2 = 1) :: binAux f (n / 2)

/-- `bin(n)[2:].rjust(w, '0')[::-1]` as truth values (`Multiply.py` 52-53; `rjust` ignores widths that are too
small or negative). -/
def binRjust (n : Nat) (w : Int) : List Bool :=
  binAux n n ++ List.replicate (w.toNat - (binAux n n).length) false

/-- `Multiply.py` 58-63: number the bits from `i`. -/
def numberBits (i : Nat) : List Bool → Dict Int Bool
  | [] => []
  | b :: bs => ((i : Int), b) :: numberBits (i + 1) bs

/-- `Multiply.py` 33-80 (`preprocess_set`): the result bits and the new set; `none` is `return False`.
(`vars_map` keys are `1, 2, ...`, all different, so the dict is the list of numbered bits.) -/
def multPreprocess (s : SetObj H) (f1 f2 : Nat) : Option (List Int × SetObj H) :=
  match s.clauses with
  | [] => none
  | c0 :: _ =>
    match c0.raw with
    | [_, b, c] =>
      let len1 : Int := b - 1                                              -- 44
      let len2 : Int := (c.natAbs : Int) - b                               -- 45
      let (f1, f2) := if f1 < f2 then (f2, f1) else (f1, f2)               -- 48-49
      let b1 := binRjust f1 len1
      let b2 := binRjust f2 len2
      if len1 < (b1.length : Int) ∨ len2 < (b2.length : Int) then none     -- 54-56
      else
        let vm := numberBits 1 (b1 ++ b2)
        let units := s.clauses.filter fun cl => decide (cl.raw.length = 1)
        let rest := s.clauses.filter fun cl => decide (cl.raw.length ≠ 1)
        let bits := units.filterMap fun cl => cl.raw.head?.map fun l => (l.natAbs : Int)
        some (bits, ({ s with clauses := rest, evaluatedVars := vm } : SetObj H).substituteVars vm)
    | _ => none

/-! ### decoding the solution (`PatternSolver.py` 585-617) -/

/-- `int(''.join(str(int(b)) ...)[::-1], 2)`: value of a list of bits, least significant first; `int('', 2)` is a
ValueError. -/
def bitsValue : List Bool → Nat
  | [] => 0
  | b :: bs => (if b then 1 else 0) + 2 * bitsValue bs

/-- `int(text, 2)` on the reversed digits. -/
def decodeBits (bs : List Bool) : M Nat := if bs.isEmpty then raise .valueError else pure (bitsValue bs)

/-- `l[a:b]` with Python's conventions for negative and too large bounds. -/
def pySlice {α : Type} (l : List α) (a b : Int) : List α :=
  let fix (i : Int) : Nat := if i < 0 then (l.length + i).toNat else min i.toNat l.length
  (l.take (fix b)).drop (fix a)

/-- What the run says about the task. -/
inductive TaskMsg where
  | factors (n a b : Nat)          -- 597: "Factorization solution is n = a x b"
  | factorsWrong (n a b : Nat)     -- 599: "Something is wrong. Probably a bug!"
  | prime (n : Nat)                -- 602: "The input number n is prime."
  | product (a b r : Nat)          -- 612: "Multiplication solution is a x b = r"
  | productWrong (a b r : Nat)     -- 614
  | cantMultiply (a b : Nat)       -- 617
  deriving DecidableEq, Repr

/-- `PatternSolver.py` 585-602.  `info = none` models a set without the attributes (never the case when
`args.factorize` is still set, `main.py` 79-82). -/
def decodeFact (info : Option FactInfo) (sol : Option (Dict Int Bool)) : M TaskMsg :=
  match info with
  | none => raise .attributeError
  | some info =>
    match sol with
    | some (p :: d) => do
      let bits := (Dict.values (p :: d)).take info.numBits.length          -- 587
      let a ← decodeBits (pySlice bits 0 info.len1)                        -- 593
      let b ← decodeBits (pySlice bits info.len1 (info.len1 + info.len2))  -- 594
      pure (if info.number = a * b then .factors info.number a b else .factorsWrong info.number a b)
    | _ => pure (.prime info.number)

/-- `PatternSolver.py` 605-617. -/
def decodeMult (a b : Nat) (bits : List Int) (sol : Option (Dict Int Bool)) : M TaskMsg :=
  match sol with
  | some (p :: d) => do
    let vs ← bits.mapM fun v => orRaise .keyError (Dict.get? (p :: d) v)   -- 606
    let r ← decodeBits vs
    pure (if r = a * b then .product a b r else .productWrong a b r)
  | _ => pure (.cantMultiply a b)

/-! ### main.py -/

/-- Everything `Main` makes visible. -/
structure MainOut (H : Type) where
  report : Option (Report H) := none       -- the statistics block was printed (verdict, solution, counts)
  task : List TaskMsg := []
  solutionFile : Option Str := none        -- content of the solution file
  verified : Option Bool := none           -- VERIFIED / NOT correct
  error : Option PyErr := none             -- "Error - ..." was logged
  exited : Bool := false                   -- `sys.exit(0)` after a refused multiplication
  deriving DecidableEq, Repr

/-- Options only `Main` looks at. -/
structure MainArgs where
  args : Args
  outputSolution : Bool := false
  verify : Bool := false
  deriving DecidableEq, Repr

section
variable [DecidableEq H] (hash : Str → H)

/-- `PatternSolver.solve_set` including the task messages: an exception while decoding suppresses the whole
statistics block (it is only logged at the very end, 629-631). -/
def solveTask (a : Args) (env : EnvChoice) (g : Gdb H) (info : Option FactInfo) (bits : List Int) (root : SetObj H) :
    M (Report H × List TaskMsg) := do
  let rep ← solveSet hash a env g root
  let m1 ← if a.factorize then do let m ← decodeFact info rep.solution; pure [m] else pure []
  let m2 ← match a.multiply with
    | some (x, y) => do let m ← decodeMult x y bits rep.solution; pure [m]
    | none => pure []
  pure (rep, m1 ++ m2)

/-- `main.py` 98-125: solve, write the solution file, verify.  The file is named after the input file: line 110
compares `input_type` (an int) with `args.line_input` (a string), so 111 takes `.name` of the input always, and for
`-l`, where the input is a string, this raises an `AttributeError` when the report has already been printed. -/
def mainSolve (ma : MainArgs) (ty : InputType) (env : EnvChoice) (g : Gdb H) (info : Option FactInfo) (bits : List Int)
    (cnf : SetObj H) : M (MainOut H) :=
  if 0 < cnf.clauses.length ∨ cnf.value ≠ none then do
    let (_, cnf') ← cnf.getHash hash false                                 -- 101
    let (rep, msgs) ← solveTask hash ma.args env g info bits cnf'
    if ma.outputSolution && truthy rep.solution && decide (ty = .sl) then  -- 110-111
      pure { report := some rep, task := msgs, error := some .attributeError }
    else
      pure { report := some rep, task := msgs,
             solutionFile := if ma.outputSolution && truthy rep.solution
               then some (formatSolution (rep.solution.getD [])) else none,
             verified := if ma.verify && truthy rep.solution
               then some (verifySolution cnf.clauses (rep.solution.getD [])) else none }
  else pure {}

/-- `main.py` 74-125, the body of the `try`. -/
def mainBody (ma : MainArgs) (env : EnvChoice) (g : Gdb H) (ty : InputType) (content : Str) : M (MainOut H) := do
  let cnf ← readInput ty content                                           -- 75-76
  let (info, cnf, a) :=                                                    -- 79-82
    if ma.args.factorize then
      match factPreprocess cnf with
      | some (i, s) => (some i, s, ma.args)
      | none => (none, cnf, { ma.args with factorize := false })
    else (none, cnf, ma.args)
  let ma := { ma with args := a }
  match a.multiply with
  | none => mainSolve hash ma ty env g info [] cnf
  | some (x, y) =>
    match multPreprocess cnf x y with                                      -- 84-95
    | none => pure { exited := true }
    | some (bits, cnf) =>
      if cnf.clauses.any fun cl => decide (cl.value = some false) then pure { exited := true }
      else mainSolve hash ma ty env g info bits cnf

/-- `main.py` 55-129 (`Main`): any exception is logged (127-129). `none` = the run never ends. -/
def mainRun (ma : MainArgs) (env : EnvChoice) (g : Gdb H) (ty : InputType) (content : Str) : Option (MainOut H) :=
  match (mainBody hash ma env g ty content : M (MainOut H)) with
  | none => none
  | some (.ok o) => some o
  | some (.error e) => some { error := some e }

end
end NDP
