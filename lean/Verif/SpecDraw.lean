import Verif.Model.Draw
import Verif.Props.Graph
/-
  How to read a drawing (`-g`): which nodes it declares, which it turns red, and the arrows.
-/
namespace NDP
open Spec
variable {H : Type} [DecidableEq H]

/-- What an arrow points at: a node, or one of the texts `T` and `F`. -/
inductive Target (H : Type) where
  | node (h : H)
  | text (t : Str)
  deriving DecidableEq, Repr

/-- The nodes declared with a label, in order. -/
def drawnNodes (d : List (Dot H)) : List H :=
  d.filterMap fun | .node h _ _ _ => some h | _ => none

/-- The nodes turned red, once for each time. -/
def redMarks (d : List (Dot H)) : List H :=
  d.filterMap fun | .again h => some h | _ => none

/-- The arrows leaving a node, in order. -/
def arrowsFrom (d : List (Dot H)) (h : H) : List (Target H) :=
  d.filterMap fun
    | .edge p c => if p = h then some (.node c) else none
    | .edgeConst p t => if p = h then some (.text t) else none
    | _ => none

/-- The nodes among the ends of some arrows. -/
def nodesAt (l : List (Target H)) : List H :=
  l.filterMap fun | .node c => some c | .text _ => none

/-- The number of arrows into a node. -/
def arrowsInto (d : List (Dot H)) (c : H) : Nat :=
  (d.filterMap fun | .edge _ c => some c | _ => none).count c

/-- The name, in the input, of the variable `v` of a node with this label. -/
def shownName (i : DotInfo) (v : Nat) : Nat := (i.ov.get? (i.fnm.getD (v - 1) 0)).getD 0

/-- Where the arrow for value `b` of the leading variable `p` of the formula `G` must point: at `T` or `F` when the branch
is decided, else at the digest of a normal form of the branch. -/
inductive ArrowTo (hash : Str → H) (mode : Mode) (G : Cnf) (p : Nat) (b : Bool) : Target H → Prop
  | tru (h : residual [((p : Int), b)] G = []) : ArrowTo hash mode G p b (.text ['T'])
  | fls (h : [] ∈ residual [((p : Int), b)] G) : ArrowTo hash mode G p b (.text ['F'])
  | node (N : Cnf) (h1 : residual [((p : Int), b)] G ≠ []) (h2 : [] ∉ residual [((p : Int), b)] G)
      (hN : NormalForm mode (residual [((p : Int), b)] G) N) : ArrowTo hash mode G p b (.node (hash (textOf N)))

/-- The arrows leaving `h` are those of a formula with digest `h`: first for its leading variable true, then for false. -/
def ArrowsOf (hash : Str → H) (mode : Mode) (h : H) (ts : List (Target H)) : Prop :=
  ∃ (G : Cnf) (x : Int) (xs : List Int) (cs : Cnf) (t1 t2 : Target H), G = (x :: xs) :: cs ∧ h = hash (textOf G) ∧
    ArrowTo hash mode G x.natAbs true t1 ∧ ArrowTo hash mode G x.natAbs false t2 ∧ ts = [t1, t2]

/-- The label of a drawn child: `after` is the text of a normal form `G` of the formula `before` shows, `G` has digest `h`,
and with the names the label gives to its variables it is what is left of `F` under the assignment the label shows. -/
def LabelOf (hash : Str → H) (mode : Mode) (F : Cnf) (h : H) (before after : Str) (i : DotInfo) : Prop :=
  ∃ B G, before = textOf B ∧ after = textOf G ∧ NormalForm mode B G ∧ h = hash after ∧
    SameClauses (mapCnf (shownName i) G) (residual i.sol F)

end NDP
