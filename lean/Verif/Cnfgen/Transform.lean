import Verif.Cnfgen.Pigeon
/-
  Model of `transformations/substitutions.py` and `transformations/shuffle.py`.
-/
namespace NDP.Cnfgen
open NDP

section
variable {V W : Type} [DecidableEq V] [DecidableEq W]

/-- `cnf.py` 252-300 (`_check_coherence`). -/
def CNF.coherent (F : CNF V) : Bool :=
  decide F.vars.Nodup && F.clauses.all fun c => c.all fun l => decide (0 < l.natAbs ∧ l.natAbs ≤ F.vars.length)

/-- `substitutions.py` 19-90 (`BaseSubstitution.__init__`).  `pre` is `transform_variable_preamble`, `tr` is
`transform_a_literal`.  Simplified: the flag `_coherent` is what it stands for (`CNF.coherent`); the table `substitutions`, indexed by
positive and negative numbers, is two lists; headers are dropped. -/
def baseSubst (F : CNF V) (pre : V → List (List (Lit W))) (tr : Bool → V → List (List (Lit W))) (newVars : Option (List W)) :
    M (CNF W) := do
  if !F.coherent then raise .assertionError else
  let G := ({} : CNF W).addVariables (newVars.getD
    (F.vars.flatMap fun v => (pre v ++ tr true v ++ tr false v).flatMap fun c => c.map Prod.snd))
  let add ← F.vars.mapM fun v => (pre v).mapM G.compress
  let pos ← F.vars.mapM fun v => (tr true v).mapM G.compress
  let neg ← F.vars.mapM fun v => (tr false v).mapM G.compress
  let blocks ← F.clauses.mapM fun c => do
    let domains ← c.mapM fun l => orRaise .indexError (if 0 < l then pos[l.natAbs - 1]? else neg[l.natAbs - 1]?)
    pure ((product domains).map List.flatten)
  let H : CNF W := { G with clauses := blocks.flatten ++ add.flatten }
  if H.coherent then pure H else raise .assertionError
end

section
variable {V : Type} [DecidableEq V] (sh : V → Str)

/-- `"<pre>{{{}}}^{}".format(varname, i)`; `sh` is what `format` makes of a variable. -/
def subName (pre : Str) (v : V) (i : Nat) : Str := pre ++ '{' :: (sh v ++ '}' :: '^' :: natStr i)

/-- The names of the new variables for `v`, `for i in range(rank)` (a negative rank gives none, like 0). -/
def subNames (pre : Str) (v : V) (rank : Nat) : List Str := (List.range rank).map (subName sh pre v)

/-- `substitutions.py` 131-145 (`IfThenElseSubstitution`). -/
def iteLit (polarity : Bool) (v : V) : List (List (Lit Str)) :=
  [[(false, subName sh [] v 0), (polarity, subName sh [] v 1)], [(true, subName sh [] v 0), (polarity, subName sh [] v 2)]]

/-- `substitutions.py` 166-187 (`MajoritySubstitution`). -/
def majLit (rank : Nat) (polarity : Bool) (v : V) : List (List (Lit Str)) :=
  if polarity then greaterOrEqual (subNames sh [] v rank) (((rank + 1) / 2 : Nat) : Int)
  else lessThan (subNames sh [] v rank) (((rank + 1) / 2 : Nat) : Int)

/-- `substitutions.py` 211-226 (`OrSubstitution`). -/
def orLit (rank : Nat) (polarity : Bool) (v : V) : List (List (Lit Str)) :=
  if polarity then [(subNames sh [] v rank).map fun n => (true, n)] else (subNames sh [] v rank).map fun n => [(false, n)]

/-- `substitutions.py` 247-262 (`AllEqualSubstitution`). -/
def eqLit (rank : Nat) (polarity : Bool) (v : V) : List (List (Lit Str)) :=
  if polarity then (permPairs (subNames sh [] v rank)).map fun p => [(false, p.1), (true, p.2)]
  else [(subNames sh [] v rank).map fun n => (false, n), (subNames sh [] v rank).map fun n => (true, n)]

/-- `substitutions.py` 280-289 (`NotAllEqualSubstitution`). -/
def neqLit (rank : Nat) (polarity : Bool) (v : V) : List (List (Lit Str)) := eqLit sh rank (!polarity) v

/-- `substitutions.py` 310-320 (`XorSubstitution`); `True` is the number 1. -/
def xorLit (rank : Nat) (polarity : Bool) (v : V) : List (List (Lit Str)) :=
  parityConstraint (subNames sh [] v rank) (if polarity then 1 else 0)

/-- `substitutions.py` 341-355 (`FormulaLifting.transform_variable_preamble`). -/
def liftPre (rank : Nat) (v : V) : List (List (Lit Str)) :=
  ((subNames sh "Y_".toList v rank).map fun n => (true, n)) ::
    (pairs (subNames sh "Y_".toList v rank)).map fun p => [(false, p.1), (false, p.2)]

/-- `substitutions.py` 358-372 (`FormulaLifting.transform_a_literal`). -/
def liftLit (rank : Nat) (polarity : Bool) (v : V) : List (List (Lit Str)) :=
  (List.range rank).map fun i => [(false, subName sh "Y_".toList v i), (polarity, subName sh "X_".toList v i)]

/-- `substitutions.py` 394-418 (`ExactlyOneSubstitution`). -/
def oneLit (rank : Nat) (polarity : Bool) (v : V) : List (List (Lit Str)) :=
  let names := subNames sh "X_".toList v rank
  if polarity then (names.map fun n => (true, n)) :: (pairs names).map fun p => [(false, p.1), (false, p.2)]
  else names.map fun n => (false, n) :: (names.filter fun o => decide (o ≠ n)).map fun o => (true, o)

/-- `substitutions.py` 438-448 (`FlipPolarity`): the variables keep their names. -/
def flipLit (polarity : Bool) (v : V) : List (List (Lit V)) := [[(!polarity, v)]]

/-- `substitutions.py` 120-129, 151-164, 194-207, 232-245, 268-278, 295-308, 326-338, 378-392, 425-434: the constructors. -/
def iteSubst (F : CNF V) : M (CNF Str) := baseSubst F (fun _ => []) (iteLit sh) none
/-- See `iteSubst`. -/
def majSubst (F : CNF V) (rank : Nat) : M (CNF Str) := baseSubst F (fun _ => []) (majLit sh rank) none
/-- See `iteSubst`. -/
def orSubst (F : CNF V) (rank : Nat) : M (CNF Str) := baseSubst F (fun _ => []) (orLit sh rank) none
/-- See `iteSubst`. -/
def eqSubst (F : CNF V) (rank : Nat) : M (CNF Str) := baseSubst F (fun _ => []) (eqLit sh rank) none
/-- See `iteSubst`. -/
def neqSubst (F : CNF V) (rank : Nat) : M (CNF Str) := baseSubst F (fun _ => []) (neqLit sh rank) none
/-- See `iteSubst`. -/
def xorSubst (F : CNF V) (rank : Nat) : M (CNF Str) := baseSubst F (fun _ => []) (xorLit sh rank) none
/-- See `iteSubst`. -/
def liftSubst (F : CNF V) (rank : Nat) : M (CNF Str) := baseSubst F (liftPre sh rank) (liftLit sh rank) none
/-- See `iteSubst`. -/
def oneSubst (F : CNF V) (rank : Nat) : M (CNF Str) := baseSubst F (fun _ => []) (oneLit sh rank) none
omit sh in
/-- See `iteSubst`. -/
def flipSubst (F : CNF V) : M (CNF V) := baseSubst F (fun _ => []) flipLit none

/-- `substitutions.py` 497-523 (`VariableCompression.transform_a_literal`): the vertex of a variable is looked up (the
dictionary is shared by all objects of the class; the constructor overwrites the entries of the current variables, and no other
entry is read), then its neighbours.  `xor` is `self._function == 'xor'`. -/
def compLit (F : CNF V) (g : BiGraph) (xor : Bool) (polarity : Bool) (v : V) : List (List (Lit Str)) :=
  let names := (g.nbrR (g.right.getD (F.vars.idxOf v) 0)).map (fmt1 "Y".toList)
  if xor then parityConstraint names (if polarity then 1 else 0)
  else if polarity then greaterOrEqual names (((names.length + 1) / 2 : Nat) : Int)
  else lessThan names (((names.length + 1) / 2 : Nat) : Int)

/-- `substitutions.py` 462-495 (`VariableCompression`). -/
def compSubst (F : CNF V) (g : BiGraph) (xor : Bool) : M (CNF Str) :=
  if g.right.length ≠ F.vars.length then raise .valueError
  else baseSubst F (fun _ => []) (compLit F g xor) (some (g.left.map (fmt1 "Y".toList)))

end

/-- `shuffle.py` 63-70, 82: `substitution[l]` for the list `substitution` of length `2*N+1`, filled at `i` and `-i` (Python's negative
indices: place `2*N+1-i`) for the variables `i = 1..N`; `pos` are its values at `1..N`.  Place 0 stays `None`, which the coherence check
compares with a number.  Simplified: that `TypeError` is raised at once. -/
def shuffleLit (pos : List Int) (l : Int) : M Int := do
  let table : List (Option Int) := none :: (pos.map some ++ (pos.map fun x => some (-x)).reverse)
  let i := if l < 0 then l + table.length else l
  if i < 0 then raise .indexError else
  let x ← orRaise .indexError table[i.toNat]?
  orRaise .typeError x

/-- `shuffle.py` 15-85 (`Shuffle`).  The random choices are the arguments: `vp` the order of the variables (also when given
explicitly), `cp` the new position of each clause, `flip` the signs. -/
def shuffle {V : Type} [DecidableEq V] (F : CNF V) (vp : List V) (cp : List Nat) (flip : List Int) : M (CNF V) := do
  if vp.length ≠ F.vars.length then raise .assertionError else
  if flip.length ≠ F.vars.length then raise .assertionError else
  if cp.length > F.clauses.length then raise .indexError else
  let G := ({} : CNF V).addVariables vp
  let pos ← (F.vars.zip flip).mapM fun p => do let i ← G.index p.1; pure (p.2 * i)
  let cls ← (cp.zip F.clauses).foldlM (fun (out : List (Option (List Int))) (p : Nat × List Int) => do
      let c ← p.2.mapM (shuffleLit pos)
      if p.1 < out.length then pure (out.set p.1 (some c)) else raise .indexError)
    (List.replicate F.clauses.length none)
  let cls ← cls.mapM fun o => orRaise .typeError o
  let H : CNF V := { G with clauses := cls }
  if H.coherent then pure H else raise .assertionError

end NDP.Cnfgen
