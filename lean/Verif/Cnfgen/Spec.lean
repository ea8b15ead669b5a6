import Verif.Spec
/-
  Vocabulary for the formula generator `software/cnfgen` (C48 and on).  Nothing here mentions its functions.
  A literal is a polarity and a variable (`cnf.py` 70-90: "a clause with k literals is a list with k pairs").
-/
namespace NDP.Cnfgen

/-- A literal: polarity and variable. -/
abbrev Lit (V : Type) := Bool × V

/-- A clause is true if one of its literals is. -/
def ClauseTrue {V : Type} (α : V → Bool) (c : List (Lit V)) : Prop := ∃ l ∈ c, α l.2 = l.1

/-- All clauses are true. -/
def AllTrue {V : Type} (α : V → Bool) (cs : List (List (Lit V))) : Prop := ∀ c ∈ cs, ClauseTrue α c

/-- How many of the variables (counted as often as they are listed) are true. -/
def nTrue {V : Type} (α : V → Bool) (vs : List V) : Nat := (vs.filter α).length

/-- The numbered clauses `cs` (number `i` or `-i` is variable number `i` of the list `vs`, counting from 1) are true when each
variable has the value `α` gives it. -/
def Holds {V : Type} (vs : List V) (cs : List (List Int)) (α : V → Bool) : Prop :=
  ∀ c ∈ cs, ∃ l ∈ c, ∃ v, l ≠ 0 ∧ vs[l.natAbs - 1]? = some v ∧ α v = decide (0 < l)

/-- Variables are different, and every number in a clause stands for one of them. -/
def Proper {V : Type} (vs : List V) (cs : List (List Int)) : Prop :=
  vs.Nodup ∧ ∀ c ∈ cs, ∀ l ∈ c, 1 ≤ l.natAbs ∧ l.natAbs ≤ vs.length

end NDP.Cnfgen
