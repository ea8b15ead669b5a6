import Verif.Model.Solver
/-
  Model of the drawing (`-g`): the statements `PatternSolver.py` adds to the graphviz document while it searches.
  Not modelled: the box with the statistics (623), the text of the attributes and the rendering (`draw_graph`).
-/
namespace NDP

/-- What the label of a drawn child shows besides its two texts (354-355): `fnm`, `ov`, `sol`, highest occurring
variable. -/
structure DotInfo where
  fnm : List Nat
  ov : Dict Nat Nat
  sol : Dict Int Bool
  hov : Int
  deriving DecidableEq, Repr

/-- One statement of the document. `node` is a black node with its label (`info` is absent for the root, 509),
`again` the statement that turns a node red (364), `const` the node `T` or `F` (372). -/
inductive Dot (H : Type) where
  | node (h : H) (before after : Str) (info : Option DotInfo)
  | again (h : H)
  | const (text : Str)
  | edge (p c : H)
  | edgeConst (p : H) (text : Str)
  deriving DecidableEq, Repr

section
variable {H : Type} [DecidableEq H] (hash : Str → H)

/-- `x.id.hex()`: an `AttributeError` unless `x.id` is a digest. -/
def hexOf (id : Option H) : M H := orRaise .attributeError id

/-- `PatternSolver.py` 352-356, 363-365, 370-373: what is drawn for one child once it has been handled; `before` is
`child_str_before` (316).  The text after is `child.to_string()`, which 344-373 do not change. -/
def drawChild (parentId : Option H) (before : Str) (child : SetObj H) : M (List (Dot H)) :=
  match child.status with
  | some .unique => do
    let c ← hexOf child.id
    let t ← child.toStr
    let p ← hexOf parentId
    pure [.node c before t (some { fnm := child.finalNamesMap, ov := child.originalValues,
                                   sol := child.evaluatedVars, hov := child.highestOccurringVar }),
          .edge p c]
  | some .redundant => do
    let c ← hexOf child.id
    let p ← hexOf parentId
    pure [.again c, .edge p c]
  | some .evaluated => do
    let t ← child.toStr
    let p ← hexOf parentId
    pure [.const t, .edgeConst p t]
  | none => pure []

/-- `PatternSolver.py` 296-389 with `-g`: one pass of the `while` body, and what it draws. -/
def expandDot (a : Args) (inputMode : Mode) (seen : List H) (ps : PS H) : M (PS H × List (Dot H)) := do
  let (cnf, q) ← ps.queue.pop
  let ps := { ps with queue := q }
  let (s1, s2, pulled, cnf) ← getChildren hash a seen ps.gdb cnf
  let ps := if pulled then { ps with foundInGdb := ps.foundInGdb + 1 } else ps
  let b1 ← s1.toStr                                                        -- 316
  let (ps, s1) ← processChild hash a inputMode pulled cnf.id ps s1
  let d1 ← drawChild cnf.id b1 s1
  let b2 ← s2.toStr
  let (ps, s2) ← processChild hash a inputMode pulled cnf.id ps s2
  let d2 ← drawChild cnf.id b2 s2
  let (h1, s1) ← s1.getHash hash false
  let (h2, s2) ← s2.getHash hash false
  let (status, g) ← saveParentChildren hash a seen ps.gdb cnf h1 h2
  let ps := { ps with gdb := g }
  let ps ← if status = .success then do
      let q ← enqueueUnique ps.queue s1
      let q ← enqueueUnique q s2
      pure { ps with queue := q }
    else pure ps
  pure (if s1.value ≠ none ∧ s2.value ≠ none then { ps with leaves := ps.leaves ++ [cnf.id] } else ps, d1 ++ d2)

/-- `PatternSolver.py` 295-389 with `-g`, for a process that spawns no workers. -/
def workerStepDot (a : Args) (inputMode : Mode) (seen : List H) (st : PS H × List (Dot H)) :
    M (PS H × List (Dot H) ⊕ PS H × List (Dot H)) :=
  if keepGoing a st.1 then do
    let (ps, d) ← expandDot hash a inputMode seen st.1
    pure (.inl (ps, st.2 ++ d))
  else pure (.inr st)

/-- A worker process with `-g` (274-459): it draws on its own copy of the document, `dot`, which dies with it. -/
def runWorkerDot (a : Args) (inputMode : Mode) (seen : List H) (g : Gdb H) (uniques : Nat) (dot : List (Dot H))
    (cnf : SetObj H) : M (PS H × List (Dot H)) := do
  let ps ← initPS hash a g uniques cnf
  pyWhile (workerStepDot hash a inputMode seen) (ps, dot)

/-- The message of a worker (459, 292) with `-g`: its drawing is not part of it. -/
def workerMsgDot (a : Args) (inputMode : Mode) (seen : List H) (g : Gdb H) (dot : List (Dot H)) (fails : Bool)
    (node : SetObj H) : Option (WorkerMsg H) :=
  if (a.useRuntimeDb || a.useGlobalDb) && fails then some .failed
  else match runWorkerDot hash a inputMode seen g 0 dot node with
    | some (.ok r) => some (.done r.1.isSat r.1.nodesChildren r.1.solution)
    | _ => none

/-- `PatternSolver.py` 295-455 with `-g`, for the main process. -/
def mainStepDot (a : Args) (inputMode : Mode) (seen : List H) (maxT : Nat) (fails : Nat → Bool)
    (sched : List Bool) (st : MainSt H × List (Dot H)) : M (MainSt H × List (Dot H) ⊕ PS H × List (Dot H)) :=
  if keepGoing a st.1.ps then do
    let (ps, d) ← expandDot hash a inputMode seen st.1.ps
    let dot := st.2 ++ d
    if st.1.gen && decide (0 < maxT) && decide (maxT = ps.queue.size) then do
      let (nodes, q) ← popMany maxT ps.queue
      let threads := nodes.mapIdx fun i n =>
        ({ node := n, msg := workerMsgDot hash a inputMode seen ps.gdb dot (fails i) n } : Thread H)
      let ps ← collect a sched { ps := { ps with queue := q }, threads := threads }
      pure (.inl ({ ps := ps, gen := false }, dot))
    else pure (.inl ({ st.1 with ps := ps }, dot))
  else pure (.inr (st.1.ps, st.2))

/-- `process_nodes_queue` of the main process with `-g`; `dot` is the document so far. -/
def runMainDot (a : Args) (inputMode : Mode) (seen : List H) (g : Gdb H) (maxT : Nat) (fails : Nat → Bool)
    (sched : List Bool) (dot : List (Dot H)) (cnf : SetObj H) : M (PS H × List (Dot H)) := do
  let ps ← initPS hash a g 1 cnf
  pyWhile (mainStepDot hash a inputMode seen maxT fails sched) ({ ps := ps, gen := decide (0 < maxT) }, dot)

/-- `PatternSolver.py` 470-566 (`solve_set`) with `-g`: the report and the drawing. -/
def solveDot (a : Args) (env : EnvChoice) (g : Gdb H) (root : SetObj H) : M (Report H × List (Dot H)) := do
  let before ← root.toStr                                                  -- 482
  let (root, h) ← prepareRoot hash a root
  let loaded := a.useGlobalDb && !a.gdbNoMem
  let solved := if loaded then g.loadSolved root.clauses.length else []    -- 499-503
  let seen := if loaded then g.loadUnsolved root.clauses.length ++ solved else []
  let isSolved := if a.gdbNoMem then g.isSolved h else decide (h ∈ solved) -- 195-200
  if !isSolved then do
    let after ← root.toStr                                                 -- 508
    let dot := [Dot.node h before after none]                              -- 509
    let (ps, dot) ← if (a.useRuntimeDb || a.useGlobalDb) && env.mainFails then
        pure ({ queue := { useDb := a.useRuntimeDb }, uniques := 1, gdb := g }, dot)
      else runMainDot hash a (inputMode a) seen g (maxThreads env.cpu a) env.fails env.sched dot root
    if a.noStats then
      pure ({ isSat := ps.isSat, solution := ps.solution, nodesChildren := ps.nodesChildren,
              uniques := ps.uniques, redundants := 0, redundantHits := ps.redundantHits,
              foundInGdb := ps.foundInGdb, gdb := ps.gdb, stats := [] }, dot)
    else do
      let (stats, red) ← constructGraphStats h ps.nodesChildren
      let rs := (stats.get? h).getD { unique := 0, redundants := 0, hits := 0 }
      let g := if a.useGlobalDb then saveInGlobalDb ps.gdb stats red else ps.gdb
      pure ({ isSat := ps.isSat, solution := ps.solution, nodesChildren := ps.nodesChildren,
              uniques := rs.unique, redundants := rs.redundants, redundantHits := rs.hits,
              foundInGdb := ps.foundInGdb, gdb := g, stats := stats }, dot)
  else match g.getSetData h with                                           -- 557-566
    | none => raise .typeError
    | some r => pure ({ isSat := false, solution := none, nodesChildren := [],
                        uniques := r.uniqueNodes, redundants := r.redundantNodes,
                        redundantHits := r.redundantHits, foundInGdb := 1, gdb := g, stats := [] }, [])

end
end NDP
