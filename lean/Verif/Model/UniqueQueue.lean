import Verif.Model.Db
/-
  Model of /repo/SuperQueue.py with `unique_queue=True` (not used by the solver itself).
  `OrderedSet.append(x)` returns the index of `x`, adding it at the end if it was not there; `len(...)` on the left of `>` is
  evaluated first, so the test of line 64 is "x was already there".
  Items are compared as Python compares Set objects (no `__eq__`: object identity), abstracted as `α` with equality.
-/
namespace NDP

/-- An entry of `idsqueue`: the item itself (line 64) or its id (line 69). -/
inductive UKey (α H : Type) where
  | item (x : α)
  | id (h : Option H)
  deriving DecidableEq, Repr

/-- `SuperQueue.py` 39-53 with `unique_queue=True`.  `ids` holds items (line 64) and, with a runtime DB, also ids (line 69). -/
structure UQueue (α H : Type) where
  useDb : Bool
  objs : List α := []
  ids : List (UKey α H) := []
  table : RtTable H := {}
  deriving DecidableEq, Repr

namespace UQueue
variable {α H : Type} [DecidableEq α] [DecidableEq H]

/-- `OrderedSet.append`. -/
def addLast {β : Type} [DecidableEq β] (l : List β) (x : β) : List β := if x ∈ l then l else l ++ [x]

/-- `SuperQueue.py` 61-74 (`insert`); `id`, `body`, `props` are the attributes of the item written to the DB. -/
def insert (q : UQueue α H) (item : α) (id : Option H) (body props : Str) : UQueue α H :=
  if UKey.item item ∈ q.ids then q
  else
    let q := { q with ids := addLast q.ids (UKey.item item) }
    if q.useDb then { q with ids := addLast q.ids (UKey.id id), table := q.table.insertSet id body props }
    else { q with objs := addLast q.objs item }

/-- `SuperQueue.py` 76-95 (`pop`); with a DB the row of the id is returned, and a non-id key finds no row. -/
def pop (q : UQueue α H) : M ((α ⊕ (H × Str × Str)) × UQueue α H) :=
  if q.useDb then
    match q.ids with
    | [] => raise .indexError
    | .item _ :: _ => raise .typeError                 -- the item itself is used as a key: `rtq_get_set` returns None
    | .id oid :: rest =>
      match q.table.getSet oid with
      | none => raise .typeError
      | some r => pure (.inr r, { q with ids := rest })
  else match q.objs with
    | [] => raise .indexError
    | x :: rest => pure (.inl x, { q with objs := rest })

/-- `SuperQueue.py` 97-104 (`size`). -/
def size (q : UQueue α H) : Nat := if q.useDb then q.ids.length else q.objs.length

/-- `SuperQueue.py` 106-107 (`is_empty`). -/
def isEmpty (q : UQueue α H) : Bool := q.size = 0

end UQueue
end NDP
