import Verif.Model.SetObj
/-
  Model of /repo/DbAdaptor.py as finite maps, and of /repo/SuperQueue.py on top of it.
  Not modelled: connection failures, SQL text, timestamps, locks.  Each `execute`+`commit` is atomic.
-/
namespace NDP

/-! ### global sets table -/

/-- `DbAdaptor.py` 61-76: one row of the global sets table (the always-empty `mapping` and the
timestamp are dropped). -/
structure Row (H : Type) where
  body : Str
  cid1 : H
  cid2 : H
  numClauses : Nat
  numVars : Nat
  uniqueNodes : Nat := 0
  redundantNodes : Nat := 0
  redundantHits : Nat := 0
  redundantTimes : Nat := 0
  deriving DecidableEq, Repr

/-- The table: `hash` is the primary key. -/
abbrev Gdb (H : Type) := Dict H (Row H)

/-- `configs.py` 65-67. -/
inductive DbStatus where
  | success | uniqueViolation
  deriving DecidableEq, Repr

namespace Gdb
variable {H : Type} [DecidableEq H]

/-- `DbAdaptor.py` 103-119 (`gs_insert_row`): primary-key violation is reported, nothing changes. -/
def insertRow (g : Gdb H) (h : H) (r : Row H) : DbStatus × Gdb H :=
  if g.contains h then (.uniqueViolation, g) else (.success, Dict.set g h r)

/-- `DbAdaptor.py` 121-130 (`gs_does_hash_exist`). -/
def hashExists (g : Gdb H) (h : H) : Bool := Dict.contains g h

/-- `DbAdaptor.py` 134-144 (`gs_is_hash_solved`): solved = `unique_nodes` non-zero. -/
def isSolved (g : Gdb H) (h : H) : Bool :=
  match Dict.get? g h with
  | some r => decide (r.uniqueNodes ≠ 0)
  | none => false

/-- `DbAdaptor.py` 146-158 (`gs_update_count`). -/
def updateCount (g : Gdb H) (u rn rh : Nat) (h : H) : Gdb H :=
  match Dict.get? g h with
  | some r => Dict.set g h { r with uniqueNodes := u, redundantNodes := rn, redundantHits := rh }
  | none => g

/-- `DbAdaptor.py` 160-172 (`gs_update_redundant_times`). -/
def updateRedundantTimes (g : Gdb H) (t : Nat) (h : H) : Gdb H :=
  match Dict.get? g h with
  | some r => Dict.set g h { r with redundantTimes := r.redundantTimes + t }
  | none => g

/-- `DbAdaptor.py` 175-186 (`gs_load_solved_sets`), digests only. -/
def loadSolved (g : Gdb H) (n : Nat) : List H :=
  (g.filter fun p => decide (p.2.numClauses ≤ n ∧ 0 < p.2.uniqueNodes)).map Prod.fst

/-- `DbAdaptor.py` 189-200 (`gs_load_unsolved_sets`). -/
def loadUnsolved (g : Gdb H) (n : Nat) : List H :=
  (g.filter fun p => decide (p.2.numClauses ≤ n ∧ p.2.uniqueNodes = 0)).map Prod.fst

/-- `DbAdaptor.py` 202-213 (`gs_get_set_data`). -/
def getSetData (g : Gdb H) (h : H) : Option (Row H) := Dict.get? g h

/-- `DbAdaptor.py` 215-225 (`gs_get_children`): `(None, None)` when the row is missing. -/
def getChildren (g : Gdb H) (h : H) : Option (H × H) := (Dict.get? g h).map fun r => (r.cid1, r.cid2)

end Gdb

/-! ### runtime queue table -/

/-- `DbAdaptor.py` 257-275: the per-process queue table.  `aborted`: after a failed statement psycopg2
refuses every further statement of the connection until a rollback, which the code never issues. -/
structure RtTable (H : Type) where
  rows : Dict H (Str × Str) := []
  aborted : Bool := false
  deriving DecidableEq, Repr

namespace RtTable
variable {H : Type} [DecidableEq H]

/-- `DbAdaptor.py` 278-291 (`rtq_insert_set`): a duplicate id (or a non-bytes id) is an SQL error, which is
logged and leaves the connection in the aborted state. -/
def insertSet (t : RtTable H) (id : Option H) (body props : Str) : RtTable H :=
  if t.aborted then t
  else match id with
    | none => { t with aborted := true }
    | some h => if t.rows.contains h then { t with aborted := true }
                else { t with rows := t.rows.set h (body, props) }

/-- `DbAdaptor.py` 293-303 (`rtq_get_set`): `none` when the row is missing or the statement fails. -/
def getSet (t : RtTable H) (id : Option H) : Option (H × Str × Str) :=
  if t.aborted then none
  else match id with
    | none => none
    | some h => (t.rows.get? h).map fun r => (h, r.1, r.2)

end RtTable

/-! ### SuperQueue (the non-unique variant used by the solver) -/

/-- `SuperQueue.py` 39-53: a queue object with `unique_queue=False`. -/
structure Queue (H : Type) where
  useDb : Bool
  objs : List (SetObj H) := []
  ids : List (Option H) := []
  table : RtTable H := {}
  deriving DecidableEq, Repr

namespace Queue
variable {H : Type} [DecidableEq H]

/-- `SuperQueue.py` 61-74 (`insert`). -/
def insert (q : Queue H) (item : SetObj H) : M (Queue H) :=
  if q.useDb then do
    let body ← item.toStr
    pure { q with ids := q.ids ++ [item.id],
                  table := q.table.insertSet item.id body item.serializeProperties }
  else pure { q with objs := q.objs ++ [item] }

/-- `SuperQueue.py` 76-95 (`pop`). `Set.Set(body, properties=...)` is `Set.py` 31-71. -/
def pop (q : Queue H) : M (SetObj H × Queue H) :=
  if q.useDb then
    match q.ids with
    | [] => raise .indexError
    | oid :: rest =>
      match q.table.getSet oid with
      | none => raise .typeError
      | some (h, body, props) => do
        let item : SetObj H := SetObj.ofLine body
        let item ← if props.isEmpty then pure item else item.deserializeProperties props
        pure ({ item with id := some h }, { q with ids := rest })
  else match q.objs with
    | [] => raise .indexError
    | x :: rest => pure (x, { q with objs := rest })

/-- `SuperQueue.py` 97-104 (`size`). -/
def size (q : Queue H) : Nat := if q.useDb then q.ids.length else q.objs.length

/-- `SuperQueue.py` 106-107 (`is_empty`). -/
def isEmpty (q : Queue H) : Bool := q.size = 0

end Queue
end NDP
