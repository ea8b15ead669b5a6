import Verif.Cnfgen.Spec
import Verif.Py
/-
  Model of `software/cnfgen/cnfformula/cnf.py`: the class `CNF` (variables, clauses, adding both) and its constraint builders.
  Paths below are relative to `software/cnfgen/cnfformula`.
-/
namespace NDP.Cnfgen
open NDP

/-! ### itertools -/

/-- `itertools.combinations(l, k)` (Python library; order: by position). -/
def combinations {α : Type} : List α → Nat → List (List α)
  | _, 0 => [[]]
  | [], _ + 1 => []
  | x :: xs, k + 1 => (combinations xs k).map (x :: ·) ++ combinations xs (k + 1)

/-- `itertools.combinations(l, 2)` as pairs. -/
def pairs {α : Type} : List α → List (α × α)
  | [] => []
  | x :: xs => xs.map (fun y => (x, y)) ++ pairs xs

/-- Each element of a list with the others, in order. -/
def picks {α : Type} : List α → List (α × List α)
  | [] => []
  | x :: xs => (x, xs) :: (picks xs).map fun p => (p.1, x :: p.2)

/-- `itertools.permutations(l, 2)` as pairs. -/
def permPairs {α : Type} (l : List α) : List (α × α) := (picks l).flatMap fun p => p.2.map fun y => (p.1, y)

/-- `itertools.permutations(l, 3)` as triples. -/
def permTriples {α : Type} (l : List α) : List (α × α × α) :=
  (picks l).flatMap fun p => (permPairs p.2).map fun q => (p.1, q)

/-- `itertools.combinations(l, 3)` as triples. -/
def triples {α : Type} : List α → List (α × α × α)
  | [] => []
  | x :: xs => (pairs xs).map (fun q => (x, q)) ++ triples xs

/-- `itertools.product(*ds)` (the last position changes fastest). -/
def product {α : Type} : List (List α) → List (List α)
  | [] => [[]]
  | d :: ds => d.flatMap fun x => (product ds).map (x :: ·)

/-! ### The class CNF -/

/-- `cnf.py` 87-104: the object.  `vars` is `_index2name[1:]` (so variable number `i+1` is `vars[i]`; `_name2index` is its
inverse), `clauses` is `_clauses`, the compressed clauses.  Headers and descriptions are dropped. -/
structure CNF (V : Type) where
  vars : List V := []
  clauses : List (List Int) := []
  deriving DecidableEq, Repr

namespace CNF
variable {V : Type} [DecidableEq V]

/-- `cnf.py` 439-465 (`add_variable`): a known variable is not added again. -/
def addVariable (F : CNF V) (v : V) : CNF V := if v ∈ F.vars then F else { F with vars := F.vars ++ [v] }

/-- The loop `for v in vs: F.add_variable(v)`. -/
def addVariables (F : CNF V) (vs : List V) : CNF V := vs.foldl addVariable F

/-- `_name2index[v]`. -/
def index (F : CNF V) (v : V) : M Int := if v ∈ F.vars then pure ((F.vars.idxOf v : Int) + 1) else raise .keyError

/-- `cnf.py` 158-186 (`_compress_clause`). -/
def compress (F : CNF V) (c : List (Lit V)) : M (List Int) :=
  c.mapM fun l => do let i ← F.index l.2; pure ((if l.1 then 1 else -1) * i)

/-- `cnf.py` 410-437 (`add_clause_unsafe`). -/
def addClauseUnsafe (F : CNF V) (c : List (Lit V)) : M (CNF V) := do
  let k ← F.compress c
  pure { F with clauses := F.clauses ++ [k] }

/-- `cnf.py` 311-408 (`add_clause`), with the flags `literal_repetitions` and `opposite_literals` left at `False`, as all
callers do.  `strict` forbids unknown variables; otherwise they are added in the order of appearance. -/
def addClause (strict : Bool) (F : CNF V) (c : List (Lit V)) : M (CNF V) :=
  if ¬ c.Nodup then raise .valueError
  else if ∃ l ∈ c, (!l.1, l.2) ∈ c then raise .valueError
  else if ∀ l ∈ c, l.2 ∈ F.vars then F.addClauseUnsafe c
  else if strict then raise .valueError
  else (F.addVariables (c.map Prod.snd)).addClauseUnsafe c

/-- A loop adding clauses with `add_clause_unsafe`. -/
def addAllUnsafe (F : CNF V) (cs : List (List (Lit V))) : M (CNF V) := cs.foldlM addClauseUnsafe F

/-- A loop adding clauses with `add_clause`. -/
def addAll (strict : Bool) (F : CNF V) (cs : List (List (Lit V))) : M (CNF V) := cs.foldlM (addClause strict) F

/-- `cnf.py` 145-156, 471-484 (`variables`, `clauses`): a clause as the user gets it back. -/
def uncompress (F : CNF V) (c : List Int) : M (List (Lit V)) :=
  c.mapM fun l => do let v ← orRaise .indexError (F.vars[l.natAbs - 1]?); pure (decide (0 < l), v)

end CNF

/-! ### Constraint builders -/
section
variable {V : Type}

/-- `cnf.py` 787-823 (`parity_constraint`): all clauses over the variables whose number of negations is not congruent to the constant. -/
def parityConstraint (vs : List V) (constant : Nat) : List (List (Lit V)) :=
  (product (vs.map fun v => [(true, v), (false, v)])).filter fun c =>
    decide ((c.map fun l => if l.1 then 0 else 1).sum % 2 ≠ constant)

/-- `cnf.py` 827-846 (`_inequality_constraint_builder`). -/
def inequality (vs : List V) (k : Int) (greater : Bool) : List (List (Lit V)) :=
  let k := if greater then (vs.length : Int) - k else k
  if k > vs.length then []
  else if k < 0 then [[]]
  else (combinations vs k.toNat).map fun tpl => tpl.map fun v => (greater, v)

/-- `cnf.py` 848-880. -/
def lessThan (vs : List V) (b : Int) : List (List (Lit V)) := inequality vs b false

/-- `cnf.py` 883-917. -/
def lessOrEqual (vs : List V) (b : Int) : List (List (Lit V)) := inequality vs (b + 1) false

/-- `cnf.py` 920-952. -/
def greaterThan (vs : List V) (b : Int) : List (List (Lit V)) := inequality vs b true

/-- `cnf.py` 955-987. -/
def greaterOrEqual (vs : List V) (b : Int) : List (List (Lit V)) := inequality vs (b - 1) true

/-- `cnf.py` 990-1018. -/
def equalTo (vs : List V) (b : Int) : List (List (Lit V)) := lessOrEqual vs b ++ greaterOrEqual vs b

/-- `cnf.py` 1020-1033 (`int((len+1)/2)` is the floor of the half). -/
def looseMajority (vs : List V) : List (List (Lit V)) := greaterOrEqual vs (((vs.length + 1) / 2 : Nat) : Int)

/-- `cnf.py` 1036-1049. -/
def looseMinority (vs : List V) : List (List (Lit V)) := lessOrEqual vs ((vs.length / 2 : Nat) : Int)

/-- `cnf.py` 1052-1065. -/
def exactlyHalfCeil (vs : List V) : List (List (Lit V)) := equalTo vs (((vs.length + 1) / 2 : Nat) : Int)

/-- `cnf.py` 1068-1081. -/
def exactlyHalfFloor (vs : List V) : List (List (Lit V)) := equalTo vs ((vs.length / 2 : Nat) : Int)

end

/-! ### Mappings -/

/-- `cnf.py` 1083-1262 (`unary_mapping`): the object.  Domain and range elements are given by their position-free labels;
`images`/`counterimages` are the methods (all the range/domain, or the neighbours in the sparsity pattern).  `rank` is the
position in the range (`RankRange`). -/
structure UnaryMapping (D R V : Type) where
  domain : List D
  range : List R
  images : D → List R
  counterimages : R → List D
  name : D → R → V
  complete : Bool := true
  functional : Bool := false
  surjective : Bool := false
  injective : Bool := false
  nondecreasing : Bool := false

namespace UnaryMapping
variable {D R V : Type}

/-- `cnf.py` 1222-1225 (`variables`). -/
def allVars (m : UnaryMapping D R V) : List V := m.domain.flatMap fun d => (m.images d).map (m.name d)

/-- `cnf.py` 1228-1261 (`clauses`). -/
def clauses [DecidableEq R] (m : UnaryMapping D R V) : List (List (Lit V)) :=
  (if m.complete then m.domain.flatMap fun d => greaterOrEqual ((m.images d).map (m.name d)) 1 else []) ++
  (if m.surjective then m.range.flatMap fun r => greaterOrEqual ((m.counterimages r).map fun d => m.name d r) 1 else []) ++
  (if m.injective then m.range.flatMap fun r => lessOrEqual ((m.counterimages r).map fun d => m.name d r) 1 else []) ++
  (if m.functional then m.domain.flatMap fun d => lessOrEqual ((m.images d).map (m.name d)) 1 else []) ++
  (if m.nondecreasing then (pairs m.domain).flatMap fun ab =>
      (m.images ab.1).flatMap fun i => ((m.images ab.2).filter fun j => decide (m.range.idxOf i > m.range.idxOf j)).map fun j =>
        [(false, m.name ab.1 i), (false, m.name ab.2 j)]
    else [])

/-- `cnf.py` 1102-1200 without a sparsity pattern: every element may be mapped to every element. -/
def full (domain : List D) (range : List R) (name : D → R → V) : UnaryMapping D R V :=
  { domain := domain, range := range, images := fun _ => range, counterimages := fun _ => domain, name := name }

end UnaryMapping

/-- `itertools.product([0,1], repeat=n)`. -/
def bitStrings (n : Nat) : List (List Bool) := product (List.replicate n [false, true])

/-- `cnf.py` 1265-1369 (`binary_mapping`).  `bits` is `int(ceil(log(len(R),2)))`, computed by Python in floating point: it is a
parameter here, and what is used of it is stated where it is used. -/
structure BinaryMapping (D R V : Type) where
  domain : List D
  range : List R
  bits : Nat
  name : D → Nat → V
  injective : Bool := false
  nondecreasing : Bool := false

namespace BinaryMapping
variable {D R V : Type} [DecidableEq R]

/-- `cnf.py` 1280-1282 (`variables`). -/
def allVars (m : BinaryMapping D R V) : List V := m.domain.flatMap fun d => (List.range m.bits).map (m.name d)

/-- `cnf.py` 1341-1344 (`forbid_bitstring`): bit number `b` of the string is variable `bits-1-b`. -/
def forbidBitstring (m : BinaryMapping D R V) (i : D) (bs : List Bool) : List (Lit V) :=
  (List.range m.bits).map fun b => (!(bs.getD b false), m.name i (m.bits - 1 - b))

/-- `cnf.py` 1331-1335 (`ImageToBits`): element number `n` of the range gets bit string number `n`. -/
def imageToBits (m : BinaryMapping D R V) (r : R) : List Bool := (bitStrings m.bits).getD (m.range.idxOf r) []

/-- `cnf.py` 1346-1348 (`forbid_image`). -/
def forbidImage (m : BinaryMapping D R V) (i : D) (r : R) : List (Lit V) := m.forbidBitstring i (m.imageToBits r)

/-- `cnf.py` 1350-1369 (`clauses`). -/
def clauses (m : BinaryMapping D R V) : List (List (Lit V)) :=
  (m.domain.flatMap fun i => ((bitStrings m.bits).drop m.range.length).map fun bs => m.forbidBitstring i bs) ++
  (if m.injective then m.range.flatMap fun j => (pairs m.domain).map fun p => m.forbidImage p.1 j ++ m.forbidImage p.2 j else []) ++
  (if m.nondecreasing then (pairs m.domain).flatMap fun p => (pairs m.range).map fun q =>
      m.forbidImage p.1 q.2 ++ m.forbidImage p.2 q.1 else [])

end BinaryMapping

end NDP.Cnfgen
