import Verif.Model.Clause
/-
  Model of /repo/Set.py.
-/
namespace NDP

/-- `Set.py` 31-40 (attributes of a Set object).  `H` is the type of SHA-1 digests.
`id` is a digest once assigned (Python default `0` is `none`).  `status` is the dynamic attribute set
by the solver (`PatternSolver.py` 320-342). Variable names are non-negative, hence `Nat`; the keys of
`evaluated_vars` are arbitrary Python ints because `Factorizer.py` 64 may compute any int. -/
structure SetObj (H : Type) where
  clauses : List Clause := []
  value : Option Bool := none
  id : Option H := none
  computedHash : Option H := none
  finalNamesMap : List Nat := []
  evaluatedVars : Dict Int Bool := []
  originalValues : Dict Nat Nat := []
  highestOccurringVar : Int := 1
  status : Option Status := none
  deriving DecidableEq, Repr

namespace SetObj
variable {H : Type}

/-- `Set.py` 133-144 (`add_clause`). -/
def addClause (s : SetObj H) (cl : Clause) : SetObj H :=
  if s.value = some false then s
  else if cl.value = some false then { s with value := some false }
  else if cl.value = some true ∧ s.clauses.length = 0 then { s with value := some true }
  else if cl.value = none then { s with clauses := s.clauses ++ [cl], value := none }
  else s

/-- `Set.py` 148-150 (`sort_within_clauses`). -/
def sortWithin (cls : List Clause) : List Clause :=
  cls.map fun c => { c with raw := sortAbs c.raw }

/-- The guard `len(self.clauses) > 0 and len(self.clauses[0].raw) > 0` used at 158, 210, 250, 259, 329. -/
def firstNonempty (cls : List Clause) : Bool :=
  match cls with
  | c :: _ => decide (0 < c.raw.length)
  | [] => false

/-- `Set.py` 152-159 (`sort_clauses`). -/
def sortClauses (s : SetObj H) : SetObj H :=
  if firstNonempty s.clauses then
    { s with clauses := isort (fun a b => clauseLt a.raw b.raw) s.clauses }
  else s

/-- Loop state of `rename_vars` (164-167): next id, `names_map`, `highest_occurring_vars_map`. -/
structure RenameSt where
  nextId : Nat := 1
  names : Dict Nat Nat := []
  occ : Dict Int Nat := []
  deriving DecidableEq, Repr

/-- `Set.py` 170-179: one literal (inner loop body). -/
def renameLit (st : RenameSt) (l : Int) : RenameSt × Int :=
  let sign : Int := if l < 0 then -1 else 1
  match st.names.get? l.natAbs with
  | some new =>
    let r := (new : Int) * sign
    ({ st with occ := st.occ.set r ((st.occ.get? r).getD 0 + 1) }, r)
  | none =>
    let new := st.nextId
    let r := (new : Int) * sign
    ({ nextId := st.nextId + 1, names := st.names.set l.natAbs new,
       occ := st.occ.set r ((st.occ.get? r).getD 0 + 1) }, r)

/-- `Set.py` 169: loop over the literals of a clause. -/
def renameRaw (st : RenameSt) : List Int → RenameSt × List Int
  | [] => (st, [])
  | l :: ls =>
    let (st, l') := renameLit st l
    let (st, ls') := renameRaw st ls
    (st, l' :: ls')

/-- `Set.py` 168: loop over the clauses. -/
def renameCls (st : RenameSt) : List Clause → RenameSt × List Clause
  | [] => (st, [])
  | c :: cs =>
    let (st, raw') := renameRaw st c.raw
    let (st, cs') := renameCls st cs
    (st, { c with raw := raw' } :: cs')

/-- `max(d, key=d.get)`: first key of maximal value; ValueError on an empty dict. -/
def argmax : Dict Int Nat → M Int
  | [] => raise .valueError
  | (k, v) :: d => pure (d.foldl (fun (b : Int × Nat) p => if b.2 < p.2 then p else b) (k, v)).1

/-- `Set.py` 162-192 (`rename_vars`). -/
def renameVars (s : SetObj H) : M (SetObj H) := do
  let (st, cls) := renameCls {} s.clauses
  let hov ← argmax st.occ                                    -- line 181 (ValueError if no literal)
  let varPositions := st.names.keys                          -- line 182
  let fnm ←
    if s.finalNamesMap.isEmpty then pure varPositions        -- line 190
    else varPositions.mapM fun (v : Nat) => pyIndex s.finalNamesMap ((v : Int) - 1)   -- line 186
  pure { s with clauses := sortWithin cls, highestOccurringVar := hov, finalNamesMap := fnm }

/-- `Set.py` 220-229 (condition 3): scan of all literals in order; `seen` are the keys of `seen_vars`. -/
def cond3 (minVar : Nat) (seen : List Nat) : List Int → Bool
  | [] => true
  | l :: ls =>
    let v := l.natAbs
    if v < minVar ∧ v ∉ seen then false
    else if v ∉ seen then cond3 v (v :: seen) ls
    else cond3 minVar seen ls

/-- `Set.py` 233-238 (condition 2): leading variables never decrease; IndexError on an empty clause. -/
def cond2 (minVar : Nat) : List Clause → M Bool
  | [] => pure true
  | c :: cs =>
    match c.raw with
    | [] => raise .indexError
    | l :: _ => if l.natAbs < minVar then pure false else cond2 l.natAbs cs

/-- `Set.py` 205-240 (`is_in_lo_state`). -/
def isInLoState (mode : Mode) (s : SetObj H) : M Bool :=
  if mode = .normal then pure true
  else match s.clauses with
    | [] => pure true
    | c :: _ =>
      match c.raw with
      | [] => pure true
      | l :: _ =>
        let minVar := l.natAbs
        if minVar > MIN_LITERAL then pure false                       -- 215-217 (condition 5)
        else if !cond3 minVar [minVar] (s.clauses.flatMap (·.raw)) then pure false
        else if mode ≠ .lou then cond2 minVar s.clauses
        else pure true

/-- `Set.py` 254-260 (`sort_clauses_by_length`). -/
def sortByLength (s : SetObj H) : SetObj H :=
  if firstNonempty s.clauses then
    { s with clauses := isort (fun a b => decide (a.raw.length < b.raw.length)) s.clauses }
  else s

/-- Tuple comparison `(len, initial_index) <` of `Set.py` 264. -/
def lenIdxLt (a b : Clause) : Bool :=
  decide (a.raw.length < b.raw.length ∨ (a.raw.length = b.raw.length ∧ a.initialIndex < b.initialIndex))

/-- `Set.py` 263-264 (`sort_clauses_by_len_and_initial_index`). -/
def sortByLenIdx (s : SetObj H) : SetObj H := { s with clauses := isort lenIdxLt s.clauses }

/-- `Set.py` 281-289: one round of the `while not self.is_in_lo_state(mode)` loop. -/
def loStep (mode : Mode) (s : SetObj H) : M (SetObj H ⊕ SetObj H) := do
  if ← s.isInLoState mode then pure (.inr s)
  else if mode ≠ .lou ∧ mode ≠ .normal then
    let s := s.sortClauses
    if ← s.isInLoState mode then pure (.inr s)
    else do let s ← s.renameVars; pure (.inl s)
  else do let s ← s.renameVars; pure (.inl s)

/-- `Set.py` 267-289 (`to_lo_condition`). -/
def toLo (mode : Mode) (sortBySize thief : Bool) (s : SetObj H) : M (SetObj H) := do
  let s := if thief then s.sortByLenIdx else s
  let s := if mode = .flop ∨ sortBySize then s.sortByLength else s
  let s ← s.renameVars
  pyWhile (loStep mode) s

/-- `Set.py` 430-436 (`get_variables`; the order of the resulting list is unspecified in Python). -/
def getVariables (s : SetObj H) : List Nat := dedup (s.clauses.flatMap fun c => c.raw.map Int.natAbs)

/-- `Set.py` 303-323: what the substitution loop does to one clause.  `none` = clause popped,
`some c` = clause kept (possibly shortened).  `lits` is the copy `clraw`. -/
def substClause (vm : Dict Int Bool) (clVars : List Int) (c : Clause) : List Int → Option Clause
  | [] => some c
  | v :: vs =>
    if (v.natAbs : Int) ∈ clVars ∧
        ((vm.get? v.natAbs = some true ∧ 0 < v) ∨ (vm.get? v.natAbs = some false ∧ v < 0)) then none
    else if (v.natAbs : Int) ∈ clVars then
      let raw := c.raw.erase v
      let c := { c with raw := raw, value := if raw.length = 0 then some false else c.value }
      substClause vm clVars c vs
    else substClause vm clVars c vs

/-- `Set.py` 294-323 (`substitute_vars`): the `while` loop handles the clauses left to right. -/
def substituteVars (vm : Dict Int Bool) (s : SetObj H) : SetObj H :=
  { s with clauses := s.clauses.filterMap fun c =>
      let clVars := vm.keys.filter (· ∈ c.raw.map fun a => (a.natAbs : Int))
      if clVars.length = 0 then some c else substClause vm clVars c c.raw }

/-- Loop state of `evaluate` (338-342): the two clause lists and the two set values. -/
structure EvalSt where
  left : List Clause := []
  right : List Clause := []
  leftVal : Option Bool := none
  rightVal : Option Bool := none
  deriving DecidableEq, Repr

/-- `Set.py` 343-376: loop body of `evaluate`. -/
def evalClause (pivot : Int) (st : EvalSt) (c : Clause) : EvalSt :=
  let cl : Clause := { Clause.ofList c.raw with initialIndex := c.initialIndex }
  if pivot ∈ cl.raw then
    let raw := cl.raw.erase pivot
    if 0 < raw.length then { st with right := st.right ++ [{ cl with raw := raw, substituted := true }] }
    else { st with rightVal := some false }
  else if -pivot ∈ cl.raw then
    let raw := cl.raw.erase (-pivot)
    if 0 < raw.length then { st with left := st.left ++ [{ cl with raw := raw, substituted := true }] }
    else { st with leftVal := some false }
  else
    let lcl : Clause := { Clause.ofList cl.raw with initialIndex := c.initialIndex }
    { st with left := st.left ++ [lcl], right := st.right ++ [cl] }

/-- `self.original_values[self.final_names_map[v-1]]` (392, 394, 395). -/
def origName (s : SetObj H) (v : Nat) : M Nat := do
  let o ← pyIndex s.finalNamesMap ((v : Int) - 1)
  orRaise .keyError (s.originalValues.get? o)

/-- `Set.py` 389-392: the `original_values` map of a child. -/
def childOriginals (s : SetObj H) (child : SetObj H) : M (Dict Nat Nat) :=
  child.getVariables.mapM fun v => do let o ← s.origName v; pure (v, o)

/-- `Set.py` 326-397 (`evaluate`); `none` is the `(None, None)` of the sanity check. -/
def evaluate (s : SetObj H) : M (Option (SetObj H × SetObj H)) :=
  match s.clauses with
  | [] => pure none
  | c0 :: _ =>
    match c0.raw with
    | [] => pure none
    | l0 :: _ => do
      let pivot : Nat := l0.natAbs
      let st := s.clauses.foldl (evalClause (pivot : Int)) {}
      let left : SetObj H := { clauses := st.left, value := st.leftVal }
      let right : SetObj H := { clauses := st.right, value := st.rightVal }
      let left := if left.clauses.length = 0 ∧ left.value = none then { left with value := some true } else left
      let right := if right.clauses.length = 0 ∧ right.value = none then { right with value := some true } else right
      let lo ← s.childOriginals left
      let ro ← s.childOriginals right
      let pname ← s.origName pivot
      let left := { left with originalValues := lo, evaluatedVars := s.evaluatedVars.set pname true }
      let right := { right with originalValues := ro, evaluatedVars := s.evaluatedVars.set pname false }
      pure (some (left, right))

/-- `Set.py` 420: `'|'.join(map(str, cl.raw))`. -/
def clauseStr (raw : List Int) : Str := joinWith ['|'] (raw.map intStr)

/-- `Set.py` 411-427: body of the clause list, `pretty=False`; empty clauses are skipped (413). -/
def bodyStr (cls : List Clause) : Str :=
  joinWith ['&'] ((cls.filter fun c => decide (0 < c.raw.length)).map fun c => clauseStr c.raw)

/-- `Set.py` 400-427 (`to_string(pretty=False)`).  The pretty form raises in the same cases. -/
def toStr (s : SetObj H) : M Str :=
  match s.value with
  | some true => pure ['T']
  | some false => pure ['F']
  | none => if s.clauses.length = 0 then raise .valueError else pure (bodyStr s.clauses)

/-- `Set.py` 443-446 (`get_hash`): cached digest unless forced.  Returns the object with its cache filled. -/
def getHash (hash : Str → H) (force : Bool) (s : SetObj H) : M (H × SetObj H) :=
  match s.computedHash, force with
  | some h, false => pure (h, s)
  | _, _ => do
    let b ← s.toStr
    pure (hash b, { s with computedHash := some (hash b) })

/-- `Set.py` 116-126 (`serialize_properties`), the `evaluated_vars` part. -/
def serEvaluated (ev : Dict Int Bool) : Str :=
  joinWith [','] ((ev.filter fun p => p.2).map fun p => intStr p.1) ++ ['-'] ++
  joinWith [','] ((ev.filter fun p => !p.2).map fun p => intStr p.1)

/-- `str(dict)` of an int-to-int dict: `{k: v, k: v}` (121). -/
def serDict (d : Dict Nat Nat) : Str :=
  ['{'] ++ joinWith [',', ' '] (d.map fun p => natStr p.1 ++ [':', ' '] ++ natStr p.2) ++ ['}']

/-- `str(list)` of ints: `[a, b]` (124). -/
def serList (l : List Nat) : Str := ['['] ++ joinWith [',', ' '] (l.map natStr) ++ [']']

/-- `Set.py` 107-126 (`serialize_properties`). -/
def serializeProperties (s : SetObj H) : Str :=
  serEvaluated s.evaluatedVars ++ ['|'] ++ serDict s.originalValues ++ ['|'] ++ serList s.finalNamesMap

end SetObj

/-! ### parsing (used when a set is read from text or from a DB) -/

/-- Strip one leading and one trailing bracket. -/
def unbracket (o c : Char) (s : Str) : Option Str :=
  match s with
  | [] => none
  | x :: xs => if x = o then
      match xs.reverse with
      | [] => none
      | y :: ys => if y = c then some ys.reverse else none
    else none

/-- `ast.literal_eval` restricted to what `str(list of ints)` produces. -/
def litList (s : Str) : Option (List Nat) :=
  match unbracket '[' ']' s with
  | none => none
  | some b => if b.isEmpty then some [] else mapOpt (fun w => (parseInt w).map Int.toNat) (splitOn ',' b)

/-- one `k: v` entry. -/
def litEntry (w : Str) : Option (Nat × Nat) :=
  match splitOn ':' w with
  | [k, v] => match parseInt k, parseInt v with
    | some k, some v => some (k.toNat, v.toNat)
    | _, _ => none
  | _ => none

/-- `ast.literal_eval` restricted to what `str(dict of ints)` produces. -/
def litDict (s : Str) : Option (Dict Nat Nat) :=
  match unbracket '{' '}' s with
  | none => none
  | some b => if b.isEmpty then some [] else
      (mapOpt litEntry (splitOn ',' b)).map fun es => es.foldl (fun d p => d.set p.1 p.2) []

/-- `Set.py` 84-93: the comma separated names of one truth value. -/
def parseNames (flag : Bool) (ws : Str) (d : Dict Int Bool) : M (Dict Int Bool) :=
  if ws.isEmpty then pure d
  else match mapOpt parseInt (splitOn ',' ws) with
    | none => raise .valueError
    | some vs => pure (vs.foldl (fun d v => d.set v flag) d)

/-- `Set.py` 77-103 (`deserialize_properties`). -/
def SetObj.deserializeProperties {H : Type} (props : Str) (s : SetObj H) : M (SetObj H) :=
  match splitOn '|' props with
  | [ev, ov, fnm] => do
    let e ← if ev.isEmpty then pure [] else
      match splitOn '-' ev with
      | [t, f] => do
        let d ← parseNames true t []
        parseNames false f d
      | _ => raise .valueError
    let o ← if ov.isEmpty then pure [] else orRaise .valueError (litDict ov)
    let n ← if fnm.isEmpty then pure [] else orRaise .valueError (litList fnm)
    pure { s with evaluatedVars := e, originalValues := o, finalNamesMap := n }
  | _ => raise .valueError

/-- `Set.py` 45-56: the literals of every clause of a single-line formula (`none` = `int()` failed). -/
def parseLineClauses (str : Str) : Option (List (List Int)) :=
  let seq := removeChar ')' (removeChar '(' str)
  mapOpt (fun cl => (mapOpt parseInt (splitOn '|' cl)).map dedup) (splitOn '&' seq)

/-- `Set.py` 58-64 and `InputReader.py` 142-149: build the clause objects, numbering them from `i`. -/
def addAll {H : Type} (s : SetObj H) (i : Nat) : List (List Int) → SetObj H
  | [] => s
  | cl :: cls => addAll (s.addClause { Clause.ofList cl with initialIndex := i }) (i + 1) cls

/-- `Set.py` 31-67 (`__init__` with `str_input`, no properties): a parse error is printed and leaves an
empty set (no clause is added before all of them are parsed). -/
def SetObj.ofLine {H : Type} (str : Str) : SetObj H :=
  if str.isEmpty then {}
  else match parseLineClauses str with
    | none => {}
    | some cls => addAll {} 1 cls

end NDP
