import Verif.Py
/-
  Model of /repo/Clause.py and /repo/configs.py (modes, node states).
-/
namespace NDP

/-- `configs.py` 51-55: the five solution modes. -/
inductive Mode where
  | flo | flop | lou | lo | normal
  deriving DecidableEq, Repr

/-- `configs.py` 43-45: `NODE_UNIQUE`, `NODE_REDUNDANT`, `NODE_EVALUATED`. -/
inductive Status where
  | unique | redundant | evaluated
  deriving DecidableEq, Repr

/-- `configs.py` 26. -/
def MIN_LITERAL : Nat := 1

/-- `Clause.py` 24-28: attributes of a clause object. -/
structure Clause where
  raw : List Int
  value : Option Bool := none
  substituted : Bool := false
  initialIndex : Nat := 0
  deriving DecidableEq, Repr

/-- `Clause.py` 68-70 (`sort`): stable sort of the literals by absolute value. -/
def sortAbs (raw : List Int) : List Int := isort (fun a b => decide (a.natAbs < b.natAbs)) raw

/-- `abs(l[0]) == abs(l[1])` where both exist. -/
def headPairEq (l : List Int) : Bool :=
  match l with
  | a :: b :: _ => decide (a.natAbs = b.natAbs)
  | _ => false

/-- `len(l) == 3 and abs(l[1]) == abs(l[2])`. -/
def tailPairEq (l : List Int) : Bool :=
  match l with
  | [_, b, c] => decide (b.natAbs = c.natAbs)
  | _ => false

/-- `Clause.py` 24-43 (`__init__` on a list or frozenset; lines 35-43 in order: the second test sees
the possibly emptied list).  The `bool` branch (45-46) is never used by the code base. -/
def Clause.ofList (inp : List Int) : Clause :=
  let raw := sortAbs inp
  let c : Clause := { raw := raw }
  let c := if headPairEq c.raw then { c with value := some true, raw := [] } else c
  let c := if tailPairEq c.raw then { c with value := some true, raw := [] } else c
  c

/-- `Clause.py` 48-65 (`__lt__`): position-wise comparison on the common prefix, then length. -/
def clauseLt : List Int → List Int → Bool
  | a :: as, b :: bs =>
    if a = b then clauseLt as bs                                  -- line 54
    else if a.natAbs = b.natAbs then decide (b < a)               -- lines 58-59
    else decide (a.natAbs ≤ b.natAbs)                             -- line 62
  | [], [] => false
  | [], _ :: _ => true                                            -- line 65
  | _ :: _, [] => false

end NDP
