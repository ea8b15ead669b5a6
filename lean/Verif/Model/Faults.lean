import Verif.Model.Shared
/-
  Database statements that fail during a `-gdb` run.  `DbAdaptor` catches every exception of every statement
  (/repo/DbAdaptor.py 110-114, 126-128, 213-214, 228-229): a failing read answers "not there", a failing INSERT is
  reported as a violation of the primary key (the first `except` clause, line 110, catches *every* exception).
-/
namespace NDP
variable {H : Type} [DecidableEq H] (hash : Str → H)

/-- Which statements of one pass of the loop raise. -/
structure PassFaults where
  /-- the existence query of `PatternSolver.py` 303 (only issued with `-gnm`) -/
  existsRead : Bool := false
  /-- one of the up to three SELECTs of `get_children_from_gdb` (304) -/
  childRead : Bool := false
  /-- the existence query of `save_parent_children` (219, only issued with `-gnm`) -/
  existsWrite : Bool := false
  /-- the INSERT or its COMMIT (220) -/
  insert : Bool := false
  /-- when `insert`: the server stored the row nevertheless (the COMMIT succeeded, its acknowledgement was lost) -/
  stored : Bool := false
  deriving DecidableEq, Repr

/-- `PatternSolver.py` 188-193 with `DbAdaptor.py` 119-130: a failing existence query answers `False`. -/
def isSetInGdbX (a : Args) (seen : List H) (fails : Bool) (g : Gdb H) (h : H) : Bool :=
  if a.gdbNoMem then (if fails then false else g.hashExists h) else decide (h ∈ seen)

/-- `PatternSolver.py` 302-313 with faults: `gs_get_children` answers `(None, None)` when it raises (`DbAdaptor.py` 219-231),
`gs_get_set_data` answers `None` (204-217); either way `get_children_from_gdb` returns `(None, None)` and the set is
evaluated. -/
def getChildrenX (a : Args) (f : PassFaults) (seen : List H) (g : Gdb H) (cnf : SetObj H) :
    M (SetObj H × SetObj H × Bool × SetObj H) := do
  if a.useGlobalDb then do
    let (ch, cnf) ← cnf.getHash hash false
    let pulled := if isSetInGdbX a seen f.existsRead g ch then
        (if f.childRead then none else getChildrenFromGdb hash g ch) else none
    match pulled with
    | some (s1, s2) => pure (s1, s2, true, cnf)
    | none => match ← cnf.evaluate with
      | none => raise .attributeError
      | some (s1, s2) => pure (s1, s2, false, cnf)
  else match ← cnf.evaluate with
    | none => raise .attributeError
    | some (s1, s2) => pure (s1, s2, false, cnf)

/-- `DbAdaptor.py` 101-117 (`gs_insert_row`) with faults: every exception gives `DB_UNIQUE_VIOLATION`. -/
def insertRowX (f : PassFaults) (g : Gdb H) (h : H) (r : Row H) : DbStatus × Gdb H :=
  if f.insert then (.uniqueViolation, if f.stored then (g.insertRow h r).2 else g) else g.insertRow h r

/-- `PatternSolver.py` 202-229 (`save_parent_children`) with faults. -/
def saveX (a : Args) (f : PassFaults) (seen : List H) (gq gw : Gdb H) (cnf : SetObj H) (h1 h2 : H) : M (DbStatus × Gdb H) := do
  let (ch, cnf) ← cnf.getHash hash false
  let nv ← numOfVars cnf
  if a.useGlobalDb && !isSetInGdbX a seen f.existsWrite gq ch then do
    let body ← cnf.toStr
    pure (insertRowX f gw ch { body := body, cid1 := h1, cid2 := h2,
                               numClauses := cnf.clauses.length, numVars := nv })
  else pure (.success, gw)

/-- `PatternSolver.py` 296-389, one pass of the loop body of one process, with failing statements `f`.  As in `expandAt`
the children are looked up in `gr`, existence is queried in `gq`, the row is inserted into `gw`. -/
def expandX (a : Args) (f : PassFaults) (inputMode : Mode) (seen : List H) (gr gq gw : Gdb H) (ps : PS H) : M (PS H) := do
  let (cnf, q) ← ps.queue.pop
  let ps := { ps with queue := q }
  let (s1, s2, pulled, cnf) ← getChildrenX hash a f seen gr cnf
  let ps := if pulled then { ps with foundInGdb := ps.foundInGdb + 1 } else ps
  let (ps, s1) ← processChild hash a inputMode pulled cnf.id ps s1
  let (ps, s2) ← processChild hash a inputMode pulled cnf.id ps s2
  let (h1, s1) ← s1.getHash hash false
  let (h2, s2) ← s2.getHash hash false
  let (status, g) ← saveX hash a f seen gq gw cnf h1 h2
  let ps := { ps with gdb := g }
  let ps ← if status = .success then do
      let q ← enqueueUnique ps.queue s1
      let q ← enqueueUnique q s2
      pure { ps with queue := q }
    else pure ps
  pure (if s1.value ≠ none ∧ s2.value ≠ none then { ps with leaves := ps.leaves ++ [cnf.id] } else ps)

/-- `n` passes of the loop of a lone process (`-t 1`), the `i`-th with the failing statements `fs[i]`, lead from `ps` to `ps'`. -/
inductive FaultyPasses (a : Args) (im : Mode) (seen : List H) : List PassFaults → PS H → PS H → Prop
  | refl (ps : PS H) : FaultyPasses a im seen [] ps ps
  | step {fs : List PassFaults} {f : PassFaults} {ps ps1 ps2 : PS H} (h : FaultyPasses a im seen fs ps ps1)
      (hgo : keepGoing a ps1 = true) (he : expandX hash a f im seen ps1.gdb ps1.gdb ps1.gdb ps1 = pure ps2) :
      FaultyPasses a im seen (fs ++ [f]) ps ps2

/-- States of a run whose processes share the table, counting passes, when statements fail and processes die.
`run`: process `i` takes one pass; what it has read is any earlier state of the table (rows of `gr`, `gq` are rows of the
table, possibly with older statistics); any of its statements may fail.  `spawn` (395-413): process `i` hands its queue to new
processes.  `die`: process `i` is killed, or ends with an exception; its results are lost. -/
inductive Faulty (a : Args) (im : Mode) (seen : List H) (g0 : Gdb H) (s : SetObj H) : Nat → Shared H → Prop
  | start (ps : PS H) (h : initPS hash a g0 1 s = pure ps) : Faulty a im seen g0 s 0 { gdb := g0, procs := [ps] }
  | run {n : Nat} {S : Shared H} (h : Faulty a im seen g0 s n S) (i : Nat) (ps ps' : PS H) (f : PassFaults) (gr gq : Gdb H)
      (hi : S.procs[i]? = some ps) (hgr : Gdb.le gr S.gdb) (hgq : Gdb.le gq S.gdb) (hgo : keepGoing a ps = true)
      (he : expandX hash a f im seen gr gq S.gdb ps = pure ps') :
      Faulty a im seen g0 s (n + 1) { gdb := ps'.gdb, procs := S.procs.set i ps' }
  | spawn {n : Nat} {S : Shared H} (h : Faulty a im seen g0 s n S) (i : Nat) (ps : PS H) (nodes : List (SetObj H))
      (q : Queue H) (news : List (PS H))
      (hi : S.procs[i]? = some ps) (hpop : popMany ps.queue.size ps.queue = pure (nodes, q))
      (hnew : List.Forall₂ (fun x p => initPS hash a S.gdb 0 x = pure p) nodes news) :
      Faulty a im seen g0 s n { gdb := S.gdb, procs := S.procs.set i { ps with queue := q } ++ news }
  | die {n : Nat} {S : Shared H} (h : Faulty a im seen g0 s n S) (i : Nat) :
      Faulty a im seen g0 s n { gdb := S.gdb, procs := S.procs.eraseIdx i }

end NDP
