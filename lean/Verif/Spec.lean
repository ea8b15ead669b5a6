import Verif.Py
import Mathlib.Data.Multiset.Basic
/-
  The specification vocabulary.  Nothing here mentions the solver: formulas are lists of lists of ints
  (DIMACS literals), assignments are functions, and so on.
-/
namespace NDP.Spec

/-- A CNF formula as written in the input: a list of clauses, each a list of literals. -/
abbrev Cnf := List (List Int)

/-- A total assignment of the variables. -/
abbrev Assign := Nat → Bool

/-- Truth value of a literal: a negative int is the negation of the variable. -/
def litVal (α : Assign) (l : Int) : Bool := if l < 0 then !α l.natAbs else α l.natAbs

/-- `α` satisfies `F`: every clause has a true literal. -/
def Sat (α : Assign) (F : Cnf) : Prop := ∀ c ∈ F, ∃ l ∈ c, litVal α l = true

/-- `F` is satisfiable. -/
def Satisfiable (F : Cnf) : Prop := ∃ α, Sat α F

/-- Truth value of a literal under a partial assignment (`none` = variable not assigned). -/
def partialVal (d : Dict Int Bool) (l : Int) : Option Bool :=
  (d.get? (l.natAbs : Int)).map fun b => if l < 0 then !b else b

/-- The partial assignment alone makes every clause true: each clause has a literal assigned true. -/
def MakesTrue (d : Dict Int Bool) (F : Cnf) : Prop := ∀ c ∈ F, ∃ l ∈ c, partialVal d l = some true

/-- Variables of a printed solution: in increasing order (so no variable twice), all of them positive. -/
def SolKeys (d : Dict Int Bool) : Prop := d.keys.Pairwise (· < ·) ∧ ∀ k ∈ d.keys, 1 ≤ k

/-- What is left of `F` under `d`: drop the clauses made true, and the false literals of the others. -/
def residual (d : Dict Int Bool) (F : Cnf) : Cnf :=
  (F.filter fun c => c.all fun l => decide (partialVal d l ≠ some true)).map fun c =>
    c.filter fun l => decide (partialVal d l = none)

/-- A formula up to the order of its clauses and of the literals in each clause. -/
def unordered (F : Cnf) : Multiset (Multiset Int) :=
  Multiset.ofList (F.map Multiset.ofList)

/-- Same clauses, in whatever order. -/
def SameClauses (F G : Cnf) : Prop := unordered F = unordered G

/-- Rename the variable of a literal, keeping its sign. -/
def mapLit (ν : Nat → Nat) (l : Int) : Int := if l < 0 then -(ν l.natAbs : Int) else (ν l.natAbs : Int)

/-- Rename every variable of a formula. -/
def mapCnf (ν : Nat → Nat) (F : Cnf) : Cnf := F.map fun c => c.map (mapLit ν)

/-- The variables of a formula, in order of first occurrence. -/
def varsOf (F : Cnf) : List Nat := dedup (F.flatMap fun c => c.map Int.natAbs)

/-- No clause is empty, no clause mentions a variable twice (so no tautologies and no repeated literals),
and `0` is not used as a literal. -/
def Proper (F : Cnf) : Prop := ∀ c ∈ F, c ≠ [] ∧ (c.map Int.natAbs).Nodup ∧ (0 : Int) ∉ c

/-- Number of literal occurrences. -/
def size (F : Cnf) : Nat := (F.map List.length).sum

end NDP.Spec
