import Verif.Spec
/-
  Specification vocabulary for the generated multiplier formulas.
-/
namespace NDP.Spec

/-- The number written by a list of bits, least significant first. -/
def natOfBits : List Bool → Nat
  | [] => 0
  | b :: bs => (if b then 1 else 0) + 2 * natOfBits bs

/-- The number written by the variables `s`, `s + 1`, …, `s + k - 1` under `α`, least significant first. -/
def numAt (α : Assign) (s k : Nat) : Nat := natOfBits ((List.range k).map fun i => α (s + i))

end NDP.Spec
