import Verif.Cnfgen.Transform
/-
  Model of DIMACS output (`cnf.py`) and input (`utils/__init__.py`) of cnfgen.
-/
namespace NDP.Cnfgen
open NDP

/-- `s.rstrip()`. -/
def rstrip (s : Str) : Str := (s.reverse.dropWhile isPySpace).reverse

/-- `cnf.py` 549, 553: `("c "+line).rstrip()`. -/
def commentLine (line : Str) : Str := rstrip ('c' :: ' ' :: line)

/-- `cnf.py` 546-553: the comment lines.  The piece after the last newline of the header is not written. -/
def headerLines (header : Str) (extra : Option Str) : List Str :=
  (splitOn '\n' header).dropLast.map commentLine ++ (match extra with | none => [] | some e => (splitOn '\n' e).map commentLine)

/-- `cnf.py` 545: no comment lines with `export_header=False` (`none`). -/
def headerPart : Option (Str × Option Str) → List Str
  | none => []
  | some (h, e) => headerLines h e

/-- `cnf.py` 533-564 (`_dimacs_dump_clauses`; `dimacs` of 486-531 returns the text written).  `header` is `none` for
`export_header=False`. -/
def dimacsText {V : Type} [DecidableEq V] (header : Option (Str × Option Str)) (F : CNF V) : M Str :=
  if !F.coherent then raise .assertionError else
  pure (((headerPart header).flatMap fun l => l ++ ['\n']) ++
    ("p cnf ".toList ++ natStr F.vars.length ++ " ".toList ++ natStr F.clauses.length) ++
    (if F.clauses.length = 0 then ['\n'] else []) ++
    F.clauses.flatMap fun c => '\n' :: joinWith [' '] ((c ++ [0]).map intStr))

/-- `file_handle.readlines()`: every line keeps its newline, the last may have none.  Simplified: only `\n` ends a line (a carriage return inside a
comment would, too). -/
def readlines (text : Str) : List Str :=
  (splitOn '\n' text).dropLast.map (· ++ ['\n']) ++
    (if (splitOn '\n' text).getLastD [] = [] then [] else [(splitOn '\n' text).getLastD []])

/-- Local variables of `dimacs2compressed_clauses`. -/
structure DimSt where
  n : Int := -1
  m : Int := -1
  header : Str := []
  clauses : List (List Int) := []
  buffer : List Int := []
  deriving DecidableEq, Repr

/-- `utils/__init__.py` 67-73: one literal. -/
def dimLit (st : DimSt) (lv : Int) : DimSt :=
  if lv = 0 then { st with clauses := st.clauses ++ [st.buffer], buffer := [] } else { st with buffer := st.buffer ++ [lv] }

/-- `utils/__init__.py` 30-73: one line. -/
def dimLine (st : DimSt) (l : Str) : M DimSt :=
  match l with
  | [] => raise .indexError                                                            -- l[0]
  | 'c' :: r => match r with
    | [] => raise .indexError                                                          -- l[1]
    | ' ' :: r' => pure { st with header := st.header ++ (if r' = [] then ['\n'] else r') }
    | r => pure { st with header := st.header ++ r }
  | 'p' :: r =>
    if st.n ≥ 0 then raise .valueError else
    match splitWS ('p' :: r) with
    | [_, _, nstr, mstr] => do
      let n ← orRaise .valueError (parseInt nstr)
      let m ← orRaise .valueError (parseInt mstr)
      pure { st with n := n, m := m }
    | _ => raise .valueError
  | l => do
    let lits ← orRaise .valueError (mapOpt parseInt (splitWS l))
    pure (lits.foldl dimLit st)

/-- `utils/__init__.py` 11-87 (`dimacs2compressed_clauses`).  The test `m=='-1'` compares a number with a string and never
holds. -/
def dimacs2compressed (text : Str) : M (Str × Int × List (List Int)) := do
  let st ← (readlines text).foldlM dimLine {}
  if 0 < st.buffer.length then raise .valueError else
  if st.m ≠ (st.clauses.length : Int) then raise .valueError else
  pure (st.header, st.n, st.clauses)

/-- `utils/__init__.py` 92-108 (`dimacs2cnf`): header and formula.  The result of the coherence check is not looked at. -/
def dimacs2cnf (text : Str) : M (Str × CNF Nat) := do
  let (h, n, cs) ← dimacs2compressed text
  let F := ({} : CNF Nat).addVariables (oneTo n.toNat)
  pure (h, { F with clauses := F.clauses ++ cs })

end NDP.Cnfgen
