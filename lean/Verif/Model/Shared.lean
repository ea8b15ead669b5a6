import Mathlib.Data.List.Forall2
import Verif.Model.Solver
/-
  Several processes working on one global table (`-gdb` with `-t`): /repo/PatternSolver.py 295-389 run by each worker,
  each with its own connection to the same PostgreSQL table.
-/
namespace NDP
variable {H : Type} [DecidableEq H] (hash : Str → H)

/-- `PatternSolver.py` 202-229 (`save_parent_children`) when the table may change between the existence query of
line 219 (answered from `gq`) and the INSERT of lines 220-227 (executed on `gw`).  The primary key is checked by the
INSERT itself. -/
def saveAt (a : Args) (seen : List H) (gq gw : Gdb H) (cnf : SetObj H) (h1 h2 : H) : M (DbStatus × Gdb H) := do
  let (ch, cnf) ← cnf.getHash hash false
  let nv ← numOfVars cnf
  if a.useGlobalDb && !isSetInGdb a seen gq ch then do
    let body ← cnf.toStr
    pure (gw.insertRow ch { body := body, cid1 := h1, cid2 := h2,
                            numClauses := cnf.clauses.length, numVars := nv })
  else pure (.success, gw)

/-- `PatternSolver.py` 296-389, one pass of the loop body of one process, when other processes write to the table
meanwhile: the children are looked up in `gr` (302-313), existence is queried in `gq` (219), the row is inserted into
`gw` (220).  `expand` is the case `gr = gq = gw`.  (Simplification: the up to four SELECTs of 302-307 see the same
table.) -/
def expandAt (a : Args) (inputMode : Mode) (seen : List H) (gr gq gw : Gdb H) (ps : PS H) : M (PS H) := do
  let (cnf, q) ← ps.queue.pop
  let ps := { ps with queue := q }
  let (s1, s2, pulled, cnf) ← getChildren hash a seen gr cnf
  let ps := if pulled then { ps with foundInGdb := ps.foundInGdb + 1 } else ps
  let (ps, s1) ← processChild hash a inputMode pulled cnf.id ps s1
  let (ps, s2) ← processChild hash a inputMode pulled cnf.id ps s2
  let (h1, s1) ← s1.getHash hash false
  let (h2, s2) ← s2.getHash hash false
  let (status, g) ← saveAt hash a seen gq gw cnf h1 h2
  let ps := { ps with gdb := g }
  let ps ← if status = .success then do
      let q ← enqueueUnique ps.queue s1
      let q ← enqueueUnique q s2
      pure { ps with queue := q }
    else pure ps
  pure (if s1.value ≠ none ∧ s2.value ≠ none then { ps with leaves := ps.leaves ++ [cnf.id] } else ps)

/-- The shared table and the processes (their own `gdb` field is not used). -/
structure Shared (H : Type) where
  gdb : Gdb H
  procs : List (PS H)

/-- Every row of `g` is also in `g'`, with the same body and children (statistics may differ). -/
def Gdb.le (g g' : Gdb H) : Prop :=
  ∀ h r, Dict.get? g h = some r → ∃ r', Dict.get? g' h = some r' ∧ r'.body = r.body ∧ r'.cid1 = r.cid1 ∧ r'.cid2 = r.cid2 ∧
    r'.numClauses = r.numClauses ∧ r'.numVars = r.numVars

/-- Steps of a run whose processes share the table; `g0` is the table when the run started.
`run` (295-389): process `i` takes one pass of its loop.  What it has read may be out of date (any states of the table
since the start, the second query seeing at least what the first saw); its INSERT acts on the current table.
`spawn` (395-413): process `i` hands each node of its queue to a new process. (Simplification: the new processes start
at once; workers whose connection fails are not modelled here.) -/
inductive Shared.Step (a : Args) (im : Mode) (seen : List H) (g0 : Gdb H) : Shared H → Shared H → Prop
  | run (S : Shared H) (i : Nat) (ps ps' : PS H) (gr gq : Gdb H) (hi : S.procs[i]? = some ps)
      (hg0 : Gdb.le g0 gr) (hgr : Gdb.le gr gq) (hgq : Gdb.le gq S.gdb) (hgo : keepGoing a ps = true)
      (h : expandAt hash a im seen gr gq S.gdb ps = pure ps') :
      Shared.Step a im seen g0 S { gdb := ps'.gdb, procs := S.procs.set i ps' }
  | spawn (S : Shared H) (i : Nat) (ps : PS H) (nodes : List (SetObj H)) (q : Queue H) (news : List (PS H))
      (hi : S.procs[i]? = some ps) (hpop : popMany ps.queue.size ps.queue = pure (nodes, q))
      (hnew : List.Forall₂ (fun x p => initPS hash a S.gdb 0 x = pure p) nodes news) :
      Shared.Step a im seen g0 S { gdb := S.gdb, procs := S.procs.set i { ps with queue := q } ++ news }

/-- `S` is reached by some interleaving of steps of a run on the normalised root `s` that started with the table `g0`. -/
inductive Shared.Reached (a : Args) (im : Mode) (seen : List H) (g0 : Gdb H) (s : SetObj H) : Shared H → Prop
  | start (ps : PS H) (h : initPS hash a g0 1 s = pure ps) : Shared.Reached a im seen g0 s { gdb := g0, procs := [ps] }
  | step {S S' : Shared H} (h : Shared.Reached a im seen g0 s S) (hs : Shared.Step hash a im seen g0 S S') :
      Shared.Reached a im seen g0 s S'

/-- As `Shared.Reached`, counting the passes of all the processes together. -/
inductive Shared.ReachedIn (a : Args) (im : Mode) (seen : List H) (g0 : Gdb H) (s : SetObj H) : Nat → Shared H → Prop
  | start (ps : PS H) (h : initPS hash a g0 1 s = pure ps) : Shared.ReachedIn a im seen g0 s 0 { gdb := g0, procs := [ps] }
  | run {n : Nat} {S : Shared H} (h : Shared.ReachedIn a im seen g0 s n S) (i : Nat) (ps ps' : PS H) (gr gq : Gdb H)
      (hi : S.procs[i]? = some ps) (hg0 : Gdb.le g0 gr) (hgr : Gdb.le gr gq) (hgq : Gdb.le gq S.gdb) (hgo : keepGoing a ps = true)
      (he : expandAt hash a im seen gr gq S.gdb ps = pure ps') :
      Shared.ReachedIn a im seen g0 s (n + 1) { gdb := ps'.gdb, procs := S.procs.set i ps' }
  | spawn {n : Nat} {S : Shared H} (h : Shared.ReachedIn a im seen g0 s n S) (i : Nat) (ps : PS H) (nodes : List (SetObj H))
      (q : Queue H) (news : List (PS H))
      (hi : S.procs[i]? = some ps) (hpop : popMany ps.queue.size ps.queue = pure (nodes, q))
      (hnew : List.Forall₂ (fun x p => initPS hash a S.gdb 0 x = pure p) nodes news) :
      Shared.ReachedIn a im seen g0 s n { gdb := S.gdb, procs := S.procs.set i { ps with queue := q } ++ news }

end NDP
