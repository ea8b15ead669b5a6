import Verif.Cnfgen.Constraints
import Verif.Cnfgen.Names
/-
  Model of `families/pigeonhole.py`.
-/
namespace NDP.Cnfgen
open NDP

/-- The loops `for v in …: F.add_variable(v)` and `for c in …: F.add_clause_unsafe(c)` on a new formula. -/
def CNF.ofParts {V : Type} [DecidableEq V] (vs : List V) (cs : List (List (Lit V))) : M (CNF V) :=
  (({} : CNF V).addVariables vs).addAllUnsafe cs

/-- `range(1, n+1)` (a negative `n` gives the empty range, like 0). -/
def oneTo (n : Nat) : List Nat := (List.range n).map (· + 1)

/-- `families/pigeonhole.py` 17-97 (`PigeonholePrinciple`). -/
def pigeonhole (pigeons holes : Nat) (functional onto : Bool) : M (CNF Str) :=
  let m := { UnaryMapping.full (oneTo pigeons) (oneTo holes) (fmt2 "p".toList) with
    injective := true, functional := functional, surjective := onto }
  CNF.ofParts m.allVars m.clauses

/-- A bipartite graph (`graphs.py` 424-427, 463-473): the sorted vertices of each side, and the edges from left to right.
Simplified: no edge joins two vertices of the same side (nothing in `graphs.py` checks it; such an edge makes the mapping raise
`KeyError`), vertices are numbers. -/
structure BiGraph where
  left : List Nat
  right : List Nat
  edges : List (Nat × Nat)
  deriving Repr

namespace BiGraph
/-- `neighbors(graph, u)` (`graphs.py` 463-473) for a vertex of the left side. -/
def nbrL (g : BiGraph) (u : Nat) : List Nat := g.right.filter fun v => decide ((u, v) ∈ g.edges)
/-- `neighbors(graph, v)` for a vertex of the right side. -/
def nbrR (g : BiGraph) (v : Nat) : List Nat := g.left.filter fun u => decide ((u, v) ∈ g.edges)
end BiGraph

/-- `cnf.py` 1102-1220 with `sparsity_pattern`. -/
def UnaryMapping.sparse {V : Type} (g : BiGraph) (name : Nat → Nat → V) : UnaryMapping Nat Nat V :=
  { domain := g.left, range := g.right, images := g.nbrL, counterimages := g.nbrR, name := name }

/-- `families/pigeonhole.py` 100-163 (`GraphPigeonholePrinciple`). -/
def graphPigeonhole (g : BiGraph) (functional onto : Bool) : M (CNF Str) :=
  let m := { UnaryMapping.sparse g (fmt2 "p".toList) with
    injective := true, functional := functional, surjective := onto }
  CNF.ofParts m.allVars m.clauses

/-- `families/pigeonhole.py` 166-193 (`BinaryPigeonholePrinciple`); the names are the default of `cnf.py` 1276-1278.  `bits`:
see `BinaryMapping`; `log(0,2)` is a `ValueError`. -/
def binaryPigeonhole (pigeons holes bits : Nat) : M (CNF Str) :=
  if holes = 0 then raise .valueError else
  let m : BinaryMapping Nat Nat Str :=
    { domain := oneTo pigeons, range := oneTo holes, bits := bits, name := fmt2 "Y".toList, injective := true }
  CNF.ofParts m.allVars m.clauses

end NDP.Cnfgen
