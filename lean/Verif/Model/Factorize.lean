import Verif.Py
/-
  /repo/tools/factorize.py: trial division.
-/
namespace NDP

/-- What `factorize` returns: a number, or the text of line 12. -/
inductive FactOut
  | factor (i : Nat)
  | isPrime
  deriving DecidableEq

/-- `tools/factorize.py` 8-10: `for i in range(lo, stop, 2): if x % i == 0: return i`; `n` is the number of values of
the range. -/
def trialFrom (x : Nat) (lo : Nat) : Nat → FactOut
  | 0 => .isPrime
  | n + 1 => if x % lo = 0 then .factor lo else trialFrom x (lo + 2) n

/-- `tools/factorize.py` 5-12 (`factorize`).  `stop` is `int(sq+1)` of lines 7-8, computed with floating-point numbers:
any value is allowed here, the theorems say what they need of it.  `range(3, stop, 2)` has `(stop - 3 + 1) / 2` values. -/
def factorizeNum (stop x : Nat) : FactOut := trialFrom x 3 ((stop - 3 + 1) / 2)

/-- `tools/factorize.py` 16-22, the result line of the script: the two factors and whether they were verified.  Line 20
divides `x` by what `factorize` returned.  (Simplification: `int(x/fact1)` is the exact quotient; the division is done in
floating point, which is exact for a divisor `fact1` of `x` as long as the quotient is below 2^53.) -/
def factorizeScript (stop x : Nat) : M (Nat × Nat × Bool) :=
  match factorizeNum stop x with
  | .isPrime => raise .typeError
  | .factor i => pure (i, x / i, decide (x = i * (x / i)))

end NDP
