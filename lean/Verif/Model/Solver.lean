import Verif.Model.Db
/-
  Model of /repo/PatternSolver.py: `process_nodes_queue`, its worker processes, the statistics and
  `solve_set`.  Not modelled: logging, graphviz output, timing, memory figures.
-/
namespace NDP

/-- The command line options the solver reads (`main.py` 138-169). -/
structure Args where
  mode : Mode := .flo
  sortBySize : Bool := false
  thief : Bool := false
  exitUponSolving : Bool := false
  useRuntimeDb : Bool := false
  useGlobalDb : Bool := false
  gdbNoMem : Bool := false
  noStats : Bool := false
  threads : Nat := 1
  factorize : Bool := false
  multiply : Option (Nat × Nat) := none
  deriving DecidableEq, Repr

/-- State of one process running `process_nodes_queue`: local variables 274-285 and the counters it
updates on `self`. -/
structure PS (H : Type) where
  queue : Queue H
  nodesChildren : Dict H (List H) := []
  isSat : Bool := false
  solution : Option (Dict Int Bool) := none
  uniques : Nat := 0
  redundantHits : Nat := 0
  redundantIds : List H := []
  leaves : List (Option H) := []
  foundInGdb : Nat := 0
  gdb : Gdb H := []
  deriving DecidableEq, Repr

section
variable {H : Type} [DecidableEq H] (hash : Str → H)

/-- `PatternSolver.py` 188-193 (`is_set_in_gdb`); `seen` are the keys of `self.seen_sets`. -/
def isSetInGdb (a : Args) (seen : List H) (g : Gdb H) (h : H) : Bool :=
  if a.gdbNoMem then g.hashExists h else decide (h ∈ seen)

/-- `PatternSolver.py` 163-181: rebuild one child from the global table; `none` = return `(None, None)`. -/
def childFromGdb (g : Gdb H) (ch : H) : Option (SetObj H) :=
  if ch = hash ['T'] then some { value := some true }
  else if ch = hash ['F'] then some { value := some false }
  else match g.getSetData ch with
    | none => none
    | some r => some { (SetObj.ofLine r.body : SetObj H) with computedHash := some ch }

/-- `PatternSolver.py` 157-183 (`get_children_from_gdb`). -/
def getChildrenFromGdb (g : Gdb H) (h : H) : Option (SetObj H × SetObj H) :=
  match g.getChildren h with
  | none => none
  | some (c1, c2) =>
    match childFromGdb hash g c1 with
    | none => none
    | some s1 => match childFromGdb hash g c2 with
      | none => none
      | some s2 => some (s1, s2)

/-- `nodes_children[pid].append(cid)`. -/
def appendChild (nc : Dict H (List H)) (pid : Option H) (cid : H) : M (Dict H (List H)) :=
  match pid with
  | none => raise .keyError
  | some p => match nc.get? p with
    | none => raise .keyError
    | some l => pure (nc.set p (l ++ [cid]))

/-- `dict(sorted(solution.items()))` (326). -/
def sortItems (d : Dict Int Bool) : Dict Int Bool := isort (fun a b => decide (a.1 < b.1)) d

/-- `PatternSolver.py` 315-373: handling of one child of the popped set. -/
def processChild (a : Args) (inputMode : Mode) (pulled : Bool) (parentId : Option H)
    (ps : PS H) (child : SetObj H) : M (PS H × SetObj H) := do
  let _ ← child.toStr                                                     -- 316
  let (ps, child) ←
    match child.value with
    | some v =>                                                            -- 319-328
      let child := { child with status := some Status.evaluated }
      let ps := if v = true ∧ ps.solution = none
                then { ps with solution := some (sortItems child.evaluatedVars) } else ps
      pure (ps, child)
    | none => do                                                           -- 330-342
      let child ← if !pulled then do
          let c ← child.toLo inputMode a.sortBySize a.thief
          let (_, c) ← c.getHash hash true
          pure c
        else pure child
      let (h, child) ← child.getHash hash false
      let child := { child with id := some h }
      let st := if (ps.nodesChildren.get? h).isSome then Status.redundant else Status.unique
      pure (ps, { child with status := some st })
  let _ ← child.toStr                                                     -- 344
  let (_, child) ← child.getHash hash false                               -- 345
  match child.status, child.id with
  | some .unique, some cid => do                                           -- 347-356
    let nc := ps.nodesChildren.set cid []
    let nc ← appendChild nc parentId cid
    pure ({ ps with uniques := ps.uniques + 1, nodesChildren := nc }, child)
  | some .redundant, some cid => do                                        -- 358-365
    let nc ← appendChild ps.nodesChildren parentId cid
    pure ({ ps with redundantHits := ps.redundantHits + 1,
                    redundantIds := if cid ∈ ps.redundantIds then ps.redundantIds else ps.redundantIds ++ [cid],
                    nodesChildren := nc }, child)
  | _, _ =>                                                                -- 367-373
    pure ({ ps with isSat := ps.isSat || (child.value == some true) }, child)

/-- `PatternSolver.py` 213-216: the value stored in `num_of_vars`. -/
def numOfVars (s : SetObj H) : M Nat :=
  match s.clauses.getLast? with
  | none => pure 0
  | some c => match c.raw.getLast? with
    | none => raise .indexError
    | some l => pure l.natAbs

/-- `PatternSolver.py` 202-229 (`save_parent_children`). -/
def saveParentChildren (a : Args) (seen : List H) (g : Gdb H) (cnf : SetObj H) (h1 h2 : H) :
    M (DbStatus × Gdb H) := do
  let (ch, cnf) ← cnf.getHash hash false
  let nv ← numOfVars cnf
  if a.useGlobalDb && !isSetInGdb a seen g ch then do
    let body ← cnf.toStr
    pure (g.insertRow ch { body := body, cid1 := h1, cid2 := h2,
                           numClauses := cnf.clauses.length, numVars := nv })
  else pure (.success, g)

/-- `squeue.insert(child)` for the unique children (379-382). -/
def enqueueUnique (q : Queue H) (child : SetObj H) : M (Queue H) :=
  if child.status = some .unique then q.insert child else pure q

/-- `PatternSolver.py` 302-313: the two children of the popped set, and whether they came from the
global table.  `AttributeError` is what `child.to_string()` raises on the `None` of a failed `evaluate`. -/
def getChildren (a : Args) (seen : List H) (g : Gdb H) (cnf : SetObj H) :
    M (SetObj H × SetObj H × Bool × SetObj H) := do
  if a.useGlobalDb then do
    let (ch, cnf) ← cnf.getHash hash false
    let pulled := if isSetInGdb a seen g ch then getChildrenFromGdb hash g ch else none
    match pulled with
    | some (s1, s2) => pure (s1, s2, true, cnf)
    | none => match ← cnf.evaluate with
      | none => raise .attributeError
      | some (s1, s2) => pure (s1, s2, false, cnf)
  else match ← cnf.evaluate with
    | none => raise .attributeError
    | some (s1, s2) => pure (s1, s2, false, cnf)

/-- `PatternSolver.py` 296-389: one pass of the `while` body (without the spawning block 395-455). -/
def expand (a : Args) (inputMode : Mode) (seen : List H) (ps : PS H) : M (PS H) := do
  let (cnf, q) ← ps.queue.pop
  let ps := { ps with queue := q }
  let (s1, s2, pulled, cnf) ← getChildren hash a seen ps.gdb cnf
  let ps := if pulled then { ps with foundInGdb := ps.foundInGdb + 1 } else ps
  let (ps, s1) ← processChild hash a inputMode pulled cnf.id ps s1
  let (ps, s2) ← processChild hash a inputMode pulled cnf.id ps s2
  let (h1, s1) ← s1.getHash hash false
  let (h2, s2) ← s2.getHash hash false
  let (status, g) ← saveParentChildren hash a seen ps.gdb cnf h1 h2
  let ps := { ps with gdb := g }
  let ps ← if status = .success then do
      let q ← enqueueUnique ps.queue s1
      let q ← enqueueUnique q s2
      pure { ps with queue := q }
    else pure ps
  pure (if s1.value ≠ none ∧ s2.value ≠ none then { ps with leaves := ps.leaves ++ [cnf.id] } else ps)

/-- `bool(solution)`. -/
def truthy (sol : Option (Dict Int Bool)) : Bool :=
  match sol with
  | some (_ :: _) => true
  | _ => false

/-- `PatternSolver.py` 295: the loop condition. -/
def keepGoing (a : Args) (ps : PS H) : Bool :=
  !ps.queue.isEmpty && !(truthy ps.solution && a.exitUponSolving)

/-- `PatternSolver.py` 295-389 for a process that spawns no workers. -/
def workerStep (a : Args) (inputMode : Mode) (seen : List H) (ps : PS H) : M (PS H ⊕ PS H) :=
  if keepGoing a ps then do
    let ps ← expand hash a inputMode seen ps
    pure (.inl ps)
  else pure (.inr ps)

/-- `PatternSolver.py` 274-285: initial state of a process. -/
def initPS (a : Args) (g : Gdb H) (uniques : Nat) (cnf : SetObj H) : M (PS H) := do
  let (_, cnf) ← cnf.getHash hash false                                    -- 283
  let q ← (({ useDb := a.useRuntimeDb } : Queue H)).insert cnf             -- 284
  match cnf.id with
  | none => raise .keyError
  | some h => pure { queue := q, nodesChildren := [(h, [])], uniques := uniques, gdb := g }

/-- `process_nodes_queue(..., generate_threads=False)`: a worker process, or the main process with `-t 1`. -/
def runWorker (a : Args) (inputMode : Mode) (seen : List H) (g : Gdb H) (uniques : Nat) (cnf : SetObj H) :
    M (PS H) := do
  let ps ← initPS hash a g uniques cnf
  pyWhile (workerStep hash a inputMode seen) ps

/-! ### worker processes (394-455) -/

/-- What a worker puts on its `mp.Queue`: 459 or, after a failed DB connection, 292. -/
inductive WorkerMsg (H : Type) where
  | failed
  | done (isSat : Bool) (nc : Dict H (List H)) (sol : Option (Dict Int Bool))
  deriving DecidableEq, Repr

/-- One entry of `self.threads`: its node and the message it will deliver (`none`: it died with an
exception, or the message has already been taken). -/
structure Thread (H : Type) where
  node : SetObj H
  msg : Option (WorkerMsg H)
  deriving DecidableEq, Repr

/-- State of the collecting loop 414-453. -/
structure CollectSt (H : Type) where
  ps : PS H
  threads : List (Thread H)
  i : Nat := 0
  deriving DecidableEq, Repr

/-- 428-431: merge a worker's `nodes_children` into the main one. -/
def mergeNodes (nc pnc : Dict H (List H)) : Dict H (List H) :=
  pnc.foldl (fun nc kv =>
    match nc.get? kv.1 with
    | some l => if 0 < l.length ∧ kv.2.length ≤ l.length then nc else nc.set kv.1 kv.2
    | none => nc.set kv.1 kv.2) nc

/-- 415-453: one pass of `while self.threads`.  `ready` says whether the message of the polled worker
has arrived (if it has not, or never will, `queue.Empty` is raised). -/
def collectStep (a : Args) (ready : Bool) (st : CollectSt H) : M (CollectSt H ⊕ PS H) :=
  if st.threads.length = 0 then pure (.inr st.ps)
  else
    let i := st.i % st.threads.length
    match st.threads[i]? with
    | none => pure (.inr st.ps)   -- unreachable: i < length
    | some t =>
      match ready, t.msg with
      | true, some .failed => do                                           -- 424-425 (thread stays in the list)
        let q ← st.ps.queue.insert t.node
        pure (.inl { ps := { st.ps with queue := q }, i := i,
                     threads := st.threads.set i { t with msg := none } })
      | true, some (.done s nc sol) =>                                     -- 426-449
        let ps := { st.ps with nodesChildren := mergeNodes st.ps.nodesChildren nc,
                               isSat := st.ps.isSat || s }
        if truthy sol then
          let ps := { ps with solution := sol }
          if a.exitUponSolving then pure (.inr ps)                         -- 439-447: terminate all, break
          else pure (.inl { ps := ps, i := i, threads := st.threads.eraseIdx i })
        else pure (.inl { ps := ps, i := i, threads := st.threads.eraseIdx i })
      | _, _ => pure (.inl { st with i := i + 1 })                         -- 451-453

/-- 415-453 along a finite schedule of arrivals; `none` = still waiting when the schedule ends. -/
def collect (a : Args) : List Bool → CollectSt H → M (PS H)
  | [], st => if st.threads.length = 0 then pure st.ps else diverge
  | r :: rs, st => do
    match ← collectStep a r st with
    | .inl st' => collect a rs st'
    | .inr ps => pure ps

/-- 401-408: pop `n` nodes. -/
def popMany : Nat → Queue H → M (List (SetObj H) × Queue H)
  | 0, q => pure ([], q)
  | n + 1, q => do
    let (x, q) ← q.pop
    let (xs, q) ← popMany n q
    pure (x :: xs, q)

/-- The message a worker started on `node` delivers.  `fails` marks workers whose DB connection fails
(only tried when a DB is in use, 281-293); a worker that raises or never ends delivers nothing. -/
def workerMsg (a : Args) (inputMode : Mode) (seen : List H) (g : Gdb H) (fails : Bool) (node : SetObj H) :
    Option (WorkerMsg H) :=
  if (a.useRuntimeDb || a.useGlobalDb) && fails then some .failed
  else match runWorker hash a inputMode seen g 0 node with
    | some (.ok ps) => some (.done ps.isSat ps.nodesChildren ps.solution)
    | _ => none

/-- `self.max_threads` (134-139). `cpu` is `mp.cpu_count()`. -/
def maxThreads (cpu : Nat) (a : Args) : Nat :=
  if a.threads = 0 then cpu * 2 else if a.threads > 1 then a.threads else 0

/-- State of the main process: `generate_threads` and the process state. -/
structure MainSt (H : Type) where
  ps : PS H
  gen : Bool
  deriving DecidableEq, Repr

/-- `PatternSolver.py` 295-455 for the main process.  `fails i` = worker `i` cannot connect; `sched` = arrival
schedule of the collecting loop.  Without `-gdb` the workers share nothing, so their messages are functions
of their nodes; runs combining `-gdb` and workers are modelled separately (`Verif/Model/Shared.lean`). -/
def mainStep (a : Args) (inputMode : Mode) (seen : List H) (maxT : Nat) (fails : Nat → Bool)
    (sched : List Bool) (st : MainSt H) : M (MainSt H ⊕ PS H) :=
  if keepGoing a st.ps then do
    let ps ← expand hash a inputMode seen st.ps
    if st.gen && decide (0 < maxT) && decide (maxT = ps.queue.size) then do  -- 395
      let (nodes, q) ← popMany maxT ps.queue
      let threads := nodes.mapIdx fun i n =>
        ({ node := n, msg := workerMsg hash a inputMode seen ps.gdb (fails i) n } : Thread H)
      let ps ← collect a sched { ps := { ps with queue := q }, threads := threads }
      pure (.inl { ps := ps, gen := false })
    else pure (.inl { st with ps := ps })
  else pure (.inr st.ps)

/-- `process_nodes_queue` of the main process. -/
def runMain (a : Args) (inputMode : Mode) (seen : List H) (g : Gdb H) (maxT : Nat) (fails : Nat → Bool)
    (sched : List Bool) (cnf : SetObj H) : M (PS H) := do
  let ps ← initPS hash a g 1 cnf
  pyWhile (mainStep hash a inputMode seen maxT fails sched) { ps := ps, gen := decide (0 < maxT) }

/-! ### statistics (231-269) -/

/-- `node_descendants` keys and `node_redundants` of 231-240. -/
structure DfsSt (H : Type) where
  desc : List H := []
  red : Dict H Nat := []
  deriving DecidableEq, Repr

/-- `PatternSolver.py` 231-240 (`get_node_subgraph_stats`). Python's recursion limit is not modelled
here but in `Model/Recursion.lean`. -/
def subgraphStats (nc : Dict H (List H)) (n : H) (st : DfsSt H) : M (DfsSt H) :=
  if n ∈ st.desc then pure { st with red := st.red.set n ((st.red.get? n).getD 0 + 1) }
  else do
    let st := { st with desc := st.desc ++ [n] }
    let cs ← orRaise .keyError (nc.get? n)
    cs.foldlM (fun st c => subgraphStats nc c st) st
partial_fixpoint

/-- `nodes_stats[node]`: unique count, redundant count, redundant hits (250-252). -/
structure NodeStats where
  unique : Nat
  redundants : Nat
  hits : Nat
  deriving DecidableEq, Repr

/-- Lines 247-252 for one node. -/
def nodeStats (nc : Dict H (List H)) (n : H) : M (NodeStats × Dict H Nat) := do
  let st ← subgraphStats nc n {}
  pure ({ unique := st.desc.length, redundants := st.red.length, hits := st.red.values.sum }, st.red)

/-- `PatternSolver.py` 243-257 (`construct_graph_stats`). -/
def constructGraphStats (root : H) (nc : Dict H (List H)) : M (Dict H NodeStats × Dict H Nat) :=
  nc.keys.foldlM (fun acc n => do
    let (s, red) ← nodeStats nc n
    pure (acc.1.set n s, if n = root then red else acc.2)) ([], [])

/-- `PatternSolver.py` 259-269 (`save_in_global_db`). -/
def saveInGlobalDb (g : Gdb H) (stats : Dict H NodeStats) (red : Dict H Nat) : Gdb H :=
  let g := stats.foldl (fun g p => Gdb.updateCount g p.2.unique p.2.redundants p.2.hits p.1) g
  red.foldl (fun g p => Gdb.updateRedundantTimes g p.2 p.1) g

/-! ### solve_set (470-583) -/

/-- What a run leaves behind: attributes of the solver object printed at 568-583, and the global table. -/
structure Report (H : Type) where
  isSat : Bool
  solution : Option (Dict Int Bool)
  nodesChildren : Dict H (List H)
  uniques : Nat
  redundants : Nat
  redundantHits : Nat
  foundInGdb : Nat
  gdb : Gdb H
  stats : Dict H NodeStats
  deriving DecidableEq, Repr

/-- Scheduling and failure choices of the environment. -/
structure EnvChoice where
  cpu : Nat := 4
  mainFails : Bool := false     -- the main process cannot open its DB connection (281-293)
  fails : Nat → Bool := fun _ => false
  sched : List Bool := []

/-- `PatternSolver.py` 484-490: the root set brought to l.o. condition, with its identity. -/
def prepareRoot (a : Args) (root : SetObj H) : M (SetObj H × H) := do
  let vars := root.getVariables
  let root := { root with originalValues := vars.map fun v => (v, v) }
  let root ← root.toLo a.mode a.sortBySize a.thief
  let (h, root) ← root.getHash hash true
  pure ({ root with id := some h }, h)

/-- `PatternSolver.py` 492-495. -/
def inputMode (a : Args) : Mode := if a.mode = .lo then .lou else a.mode

/-- `PatternSolver.py` 470-566 (`solve_set`) on a global table `g`. -/
def solveSet (a : Args) (env : EnvChoice) (g : Gdb H) (root : SetObj H) : M (Report H) := do
  let _ ← root.toStr                                                       -- 482
  let (root, h) ← prepareRoot hash a root
  let loaded := a.useGlobalDb && !a.gdbNoMem
  let solved := if loaded then g.loadSolved root.clauses.length else []    -- 499-503
  let seen := if loaded then g.loadUnsolved root.clauses.length ++ solved else []
  let isSolved := if a.gdbNoMem then g.isSolved h else decide (h ∈ solved) -- 195-200
  if !isSolved then do
    let ps ← if (a.useRuntimeDb || a.useGlobalDb) && env.mainFails then      -- 287-293: logged, `return False`
        pure { queue := { useDb := a.useRuntimeDb }, uniques := 1, gdb := g }
      else runMain hash a (inputMode a) seen g (maxThreads env.cpu a) env.fails env.sched root
    if a.noStats then
      pure { isSat := ps.isSat, solution := ps.solution, nodesChildren := ps.nodesChildren,
             uniques := ps.uniques, redundants := 0, redundantHits := ps.redundantHits,
             foundInGdb := ps.foundInGdb, gdb := ps.gdb, stats := [] }
    else do
      let (stats, red) ← constructGraphStats h ps.nodesChildren
      let rs := (stats.get? h).getD { unique := 0, redundants := 0, hits := 0 }
      let g := if a.useGlobalDb then saveInGlobalDb ps.gdb stats red else ps.gdb
      pure { isSat := ps.isSat, solution := ps.solution, nodesChildren := ps.nodesChildren,
             uniques := rs.unique, redundants := rs.redundants, redundantHits := rs.hits,
             foundInGdb := ps.foundInGdb, gdb := g, stats := stats }
  else match g.getSetData h with                                           -- 557-566
    | none => raise .typeError
    | some r => pure { isSat := false, solution := none, nodesChildren := [],
                       uniques := r.uniqueNodes, redundants := r.redundantNodes,
                       redundantHits := r.redundantHits, foundInGdb := 1, gdb := g, stats := [] }

/-! ### solution output (634-671) -/

/-- `PatternSolver.py` 635-650 (`format_solution`). -/
def formatSolution (sol : Dict Int Bool) : Str :=
  let t := (sol.filter fun p => p.2).map fun p => intStr p.1
  let f := (sol.filter fun p => !p.2).map fun p => intStr p.1
  (if t.isEmpty then [] else ['T', ':'] ++ joinWith [','] t ++ ['\n']) ++
  (if f.isEmpty then [] else ['F', ':'] ++ joinWith [','] f)

/-- `PatternSolver.py` 653-671 (`verify_solution`). -/
def verifySolution (cls : List Clause) (sol : Dict Int Bool) : Bool :=
  let t := (sol.filter fun p => p.2).map Prod.fst
  let f := (sol.filter fun p => !p.2).map Prod.fst
  cls.all fun c => c.raw.any fun v =>
    (decide (0 < v) && decide (v ∈ t)) || (decide (v < 0) && decide ((v.natAbs : Int) ∈ f))

end
end NDP
