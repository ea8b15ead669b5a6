import Verif.Model.SetObj
/-
  Model of /repo/InputReader.py.  Files are opened in text mode (`argparse.FileType('r')`, `main.py` 146-147), so
  every line end has already been translated to '\n'.  Characters are ASCII as far as `strip`, `split()` and `int` are
  concerned (see `Verif/Py.lean`).
-/
namespace NDP

/-- `file.readline()`: the next line with its '\n' (empty at the end of the file), and the rest. -/
def readline : Str → Str × Str
  | [] => ([], [])
  | c :: cs => if c = '\n' then (['\n'], cs) else (c :: (readline cs).1, (readline cs).2)

/-- `configs.py` 29-31. -/
inductive InputType where
  | sl | slf | dimacs
  deriving DecidableEq, Repr

/-- Local variables of `__parse_dimacs_file`: `clause` and `clauses_set`. -/
structure DimacsSt where
  clause : List Int := []
  done : List (List Int) := []
  deriving DecidableEq, Repr

/-- `InputReader.py` 113-132: one piece of a clause line.  Every exception is re-raised as a bare `Exception`
(134-135). -/
def dimacsElem (st : DimacsSt) (el : Str) : M DimacsSt :=
  if el.isEmpty then pure st                                              -- 114-115
  else match parseInt el with
    | none => raise .exception                                            -- 117
    | some iel =>
      if iel = 0 ∧ st.clause.length = 0 then pure st                      -- 119-120
      else if iel = 0 then
        if 3 < st.clause.length then raise .exception                     -- 124-126
        else pure { clause := [], done := st.done ++ [dedup st.clause] }  -- 128-129
      else pure { st with clause := st.clause ++ [iel] }                  -- 132

/-- `InputReader.py` 95-132: one stripped line. -/
def dimacsLine (st : DimacsSt) (line : Str) : M DimacsSt :=
  if line.isEmpty then pure st                                            -- 96-97
  else if startsWith 'c' line then pure st                                -- 100-101
  else if startsWith 'p' line then                                        -- 105-107
    if (splitWS line).length = 4 then pure st else raise .exception
  else (splitOn ' ' line).foldlM dimacsElem st                            -- 112

/-- Loop state: `dline`, what is left of the file, and the clauses read so far. -/
structure DimacsLoop where
  dline : Str
  rest : Str
  st : DimacsSt := {}
  deriving DecidableEq, Repr

/-- `InputReader.py` 91-135: `while dline: dline = dimacs_file.readline().strip(); ...`. -/
def dimacsStep (s : DimacsLoop) : M (DimacsLoop ⊕ DimacsSt) :=
  if s.dline.isEmpty then pure (.inr s.st)
  else do
    let dline := strip (readline s.rest).1
    let st ← dimacsLine s.st dline
    pure (.inl { dline := dline, rest := (readline s.rest).2, st := st })

/-- `InputReader.py` 77-153 (`__parse_dimacs_file`).  Line 82 reads the first line, whose content is never used. -/
def parseDimacs {H : Type} (file : Str) : M (SetObj H) := do
  let st ← pyWhile dimacsStep { dline := (readline file).1, rest := (readline file).2 }
  let done := if 0 < st.clause.length then st.done ++ [dedup st.clause] else st.done   -- 139-140
  pure (addAll {} 1 done)                                                              -- 143-149

/-- `InputReader.py` 158-172 (`get_cnf_set`).  For `-l` the local variable `seq` of 166 was never assigned. -/
def getCnfSet {H : Type} (ty : InputType) (content : Str) : M (SetObj H) :=
  match ty with
  | .sl => raise .unboundLocalError
  | .slf => pure (SetObj.ofLine (readline content).1)
  | .dimacs => parseDimacs content

/-- `InputReader.py` 45-63 (`__init__`) followed by `get_cnf_set`.  For files `content` is the content of the (always
non-null) file object; for `-l` it is the string, and the empty string is refused. -/
def readInput {H : Type} (ty : InputType) (content : Str) : M (SetObj H) :=
  if ty = .sl ∧ content.isEmpty then raise .exception
  else getCnfSet ty content

end NDP
