import Verif.Spec
/-
  Specification of the two input formats, independent of the readers.
-/
namespace NDP.Spec

/-- A DIMACS comment line: its first visible character is `c`. -/
def isComment (line : Str) : Bool := startsWith 'c' (line.dropWhile isPySpace)

/-- A DIMACS problem line: its first visible character is `p`. -/
def isProblem (line : Str) : Bool := startsWith 'p' (line.dropWhile isPySpace)

/-- A line with nothing visible on it. -/
def isBlank (line : Str) : Bool := line.all isPySpace

/-- The integer tokens of a DIMACS text: the whitespace-separated words of all lines that are neither comments nor
problem lines. -/
def dimacsTokens (text : Str) : List Str :=
  (splitOn '\n' text).flatMap fun l => if isComment l || isProblem l then [] else splitWS l

/-- Cut a stream of integers into clauses: `0` ends a clause; a last clause without `0` counts too. -/
def cutClauses (acc : List Int) : List Int → Cnf
  | [] => if acc = [] then [] else [acc]
  | t :: ts => if t = 0 then acc :: cutClauses [] ts else cutClauses (acc ++ [t]) ts

/-- The formula a DIMACS text stands for (`none`: a token is not an integer). -/
def dimacsFormula (text : Str) : Option Cnf := (mapOpt parseInt (dimacsTokens text)).map (cutClauses [])

/-- Characters that may be put around a literal in a single-line formula without changing its meaning. -/
def isDecoration (c : Char) : Prop := c = ' ' ∨ c = '(' ∨ c = ')' ∨ c = '\t' ∨ c = '\n'

/-- `w` is the integer `l` in decimal, with spaces and parentheses around it. -/
def WritesLit (w : Str) (l : Int) : Prop :=
  ∃ pre post : Str, (∀ c ∈ pre ++ post, isDecoration c) ∧ w = pre ++ intStr l ++ post

/-- `w` is the clause `c`: its literals separated by `|`. -/
def WritesClause (w : Str) (c : List Int) : Prop :=
  ∃ ws : List Str, List.Forall₂ WritesLit ws c ∧ c ≠ [] ∧ w = joinWith ['|'] ws

/-- `w` is the formula `F`: its clauses separated by `&`. -/
def WritesCnf (w : Str) (F : Cnf) : Prop :=
  ∃ ws : List Str, List.Forall₂ WritesClause ws F ∧ F ≠ [] ∧ w = joinWith ['&'] ws

/-- A clause with a literal and its negation. -/
def Tautology (c : List Int) : Prop := ∃ l ∈ c, -l ∈ c

instance (c : List Int) : Decidable (Tautology c) := by unfold Tautology; infer_instance

end NDP.Spec
