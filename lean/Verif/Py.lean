/-
  Python primitives used by the code base, transcribed as total Lean functions.
  Nothing here is specific to the project; every other model file is built from these.
-/
namespace NDP

/-- The Python exceptions the modelled code can raise. -/
inductive PyErr where
  | valueError | indexError | keyError | attributeError | typeError | unboundLocalError | assertionError
  | zeroDivisionError | runtimeError | recursionError | nameError
  | exception            -- a bare `Exception(...)` raised by the project itself
  deriving DecidableEq, Repr

/-- Result of running Python code: `none` = never returns, `some (.error e)` = raised `e`,
`some (.ok a)` = returned `a`. -/
abbrev M (α : Type) := ExceptT PyErr Option α

/-- Python `raise`. -/
def raise {α : Type} (e : PyErr) : M α := throw e

/-- The computation that never returns. -/
def diverge {α : Type} : M α := (none : Option (Except PyErr α))

/-- Lift an `Option` to an exception when absent. -/
def orRaise {α : Type} (e : PyErr) : Option α → M α
  | some a => pure a
  | none => raise e

/-- A Python `while` loop: `step s` is one evaluation of the loop condition and body, answering
`.inl s'` to go round again and `.inr r` to leave the loop.  Least fixed point: a loop that never
ends is `none`. -/
def pyWhile {S R : Type} (step : S → M (S ⊕ R)) (s : S) : M R := do
  match ← step s with
  | .inl s' => pyWhile step s'
  | .inr r => pure r
partial_fixpoint

/-! ### `dict` (insertion ordered) -/

/-- A Python `dict`: association list in insertion order. -/
abbrev Dict (κ β : Type) := List (κ × β)

namespace Dict
variable {κ β : Type} [DecidableEq κ]

/-- `d.get(k)` / `d[k]` (absent = `none`). -/
def get? : Dict κ β → κ → Option β
  | [], _ => none
  | (k', v) :: d, k => if k' = k then some v else get? d k

/-- `d[k] = v`: overwrite in place, or append a new entry at the end. -/
def set : Dict κ β → κ → β → Dict κ β
  | [], k, v => [(k, v)]
  | (k', v') :: d, k, v => if k' = k then (k, v) :: d else (k', v') :: set d k v

/-- `d.keys()`. -/
def keys (d : Dict κ β) : List κ := d.map Prod.fst

/-- `d.values()`. -/
def values (d : Dict κ β) : List β := d.map Prod.snd

/-- `k in d`. -/
def contains (d : Dict κ β) (k : κ) : Bool := (d.get? k).isSome

/-- `{**d, **e}` / `d.update(e)`. -/
def update (d e : Dict κ β) : Dict κ β := e.foldl (fun d p => d.set p.1 p.2) d

end Dict

/-! ### `list` helpers -/

/-- Insert `x` before the first element that is not smaller (used from the right, so ties keep
their original order). -/
def insertBy {α : Type} (lt : α → α → Bool) (x : α) : List α → List α
  | [] => [x]
  | y :: ys => if lt y x then y :: insertBy lt x ys else x :: y :: ys

/-- `list.sort()` / `sorted()`: the stable sort determined by `lt` (Timsort only calls `__lt__`, and
for a strict weak order the stable sorted permutation is unique). -/
def isort {α : Type} (lt : α → α → Bool) : List α → List α
  | [] => []
  | x :: xs => insertBy lt x (isort lt xs)

/-- `list(set(xs))` / `frozenset(xs)`: each element once.  Python's iteration order of a set is
unspecified; here first occurrences are kept in order. -/
def dedup {α : Type} [DecidableEq α] : List α → List α
  | [] => []
  | x :: xs => x :: (dedup xs).filter (· ≠ x)

/-- `l[i]` with Python's negative indices. -/
def pyIndex {α : Type} (l : List α) (i : Int) : M α :=
  if 0 ≤ i then orRaise .indexError (l[i.toNat]?)
  else if (l.length : Int) + i < 0 then raise .indexError
  else orRaise .indexError (l[((l.length : Int) + i).toNat]?)

/-! ### `str` (lists of characters) -/

/-- A Python string. -/
abbrev Str := List Char

/-- ASCII characters removed by `str.strip()` and skipped by `int()`. -/
def isPySpace (c : Char) : Bool :=
  c = ' ' || c = '\t' || c = '\n' || c = '\r' || c.toNat = 11 || c.toNat = 12 ||
  (28 ≤ c.toNat && c.toNat ≤ 31)

/-- `s.strip()`. -/
def strip (s : Str) : Str := ((s.dropWhile isPySpace).reverse.dropWhile isPySpace).reverse

/-- `s.split(sep)` for a one-character separator; never returns an empty list. -/
def splitOn (sep : Char) : Str → List Str
  | [] => [[]]
  | c :: cs =>
    if c = sep then [] :: splitOn sep cs
    else match splitOn sep cs with
      | [] => [[c]]
      | w :: ws => (c :: w) :: ws

/-- `s.split()`: maximal runs of non-whitespace. -/
def splitWS : Str → List Str
  | [] => []
  | c :: cs =>
    if isPySpace c then splitWS cs
    else match cs with
      | [] => [[c]]
      | d :: _ => if isPySpace d then [c] :: splitWS cs
                  else match splitWS cs with
                    | [] => [[c]]
                    | w :: ws => (c :: w) :: ws

/-- `sep.join(ws)`. -/
def joinWith (sep : Str) : List Str → Str
  | [] => []
  | [w] => w
  | w :: ws => w ++ sep ++ joinWith sep ws

/-- `s.replace(c, '')`. -/
def removeChar (c : Char) (s : Str) : Str := s.filter (· ≠ c)

/-- `s.startswith(c)`. -/
def startsWith (c : Char) : Str → Bool
  | [] => false
  | d :: _ => d = c

/-! ### decimal integers -/

/-- The decimal digit character of `n < 10`. -/
def digitChar (n : Nat) : Char := Char.ofNat (48 + n)

/-- Value of an ASCII digit. -/
def digitVal? (c : Char) : Option Nat :=
  if 48 ≤ c.toNat ∧ c.toNat ≤ 57 then some (c.toNat - 48) else none

/-- Digits of `n`, most significant first (`fuel ≥ n` suffices). -/
def natStrAux : Nat → Nat → Str
  | 0, n => [digitChar (n % 10)]
  | f + 1, n => if n < 10 then [digitChar n] else natStrAux f (n / 10) ++ [digitChar (n % 10)]

/-- `str(n)` for a natural number. -/
def natStr (n : Nat) : Str := natStrAux n n

/-- `str(i)`. -/
def intStr (i : Int) : Str := if i < 0 then '-' :: natStr i.natAbs else natStr i.natAbs

/-- The digit part of `int(s)`: digits, single underscores allowed between digits. -/
def digitsVal (acc : Nat) (prev : Bool) : Str → Option Nat
  | [] => if prev then some acc else none
  | c :: cs =>
    if c = '_' then (if prev then digitsVal acc false cs else none)
    else match digitVal? c with
      | some d => digitsVal (acc * 10 + d) true cs
      | none => none

/-- `int(s)` on ASCII strings (`none` = ValueError). -/
def parseInt (s : Str) : Option Int :=
  match strip s with
  | '-' :: cs => (digitsVal 0 false cs).map fun (n : Nat) => -(n : Int)
  | '+' :: cs => (digitsVal 0 false cs).map fun (n : Nat) => (n : Int)
  | cs => (digitsVal 0 false cs).map fun (n : Nat) => (n : Int)

/-- Map a fallible function over a list (a `for` loop that raises at the first failure). -/
def mapOpt {α β : Type} (f : α → Option β) : List α → Option (List β)
  | [] => some []
  | a :: as => match f a with
    | none => none
    | some b => match mapOpt f as with
      | none => none
      | some bs => some (b :: bs)

end NDP
