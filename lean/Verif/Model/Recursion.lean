import Verif.Model.Solver
/-
  `solve_set` on an interpreter with a bounded call stack.  `Model/Solver.lean` models the statistics without Python's
  recursion limit; here the limit is a parameter.
-/
namespace NDP
open SetObj
variable {H : Type} [DecidableEq H] (hash : Str → H)

/-- `PatternSolver.py` 231-240 (`get_node_subgraph_stats`) when `d` frames are left on the call stack: with none left the
call raises `RecursionError`.  The limit set at line 541 counts the callers' frames too (module, `Main`, `solve_set`,
`construct_graph_stats`); `d` is what they leave. -/
def subgraphStatsL (nc : Dict H (List H)) : Nat → H → DfsSt H → M (DfsSt H)
  | 0, _, _ => raise .recursionError
  | d + 1, n, st =>
    if n ∈ st.desc then pure { st with red := st.red.set n ((st.red.get? n).getD 0 + 1) }
    else do
      let st := { st with desc := st.desc ++ [n] }
      let cs ← orRaise .keyError (nc.get? n)
      cs.foldlM (fun st c => subgraphStatsL nc d c st) st

/-- `PatternSolver.py` 247-252 for one node, `d` frames left. -/
def nodeStatsL (nc : Dict H (List H)) (d : Nat) (n : H) : M (NodeStats × Dict H Nat) := do
  let st ← subgraphStatsL nc d n {}
  pure ({ unique := st.desc.length, redundants := st.red.length, hits := st.red.values.sum }, st.red)

/-- `PatternSolver.py` 243-257 (`construct_graph_stats`), `d` frames left. -/
def constructGraphStatsL (d : Nat) (root : H) (nc : Dict H (List H)) : M (Dict H NodeStats × Dict H Nat) :=
  nc.keys.foldlM (fun acc n => do
    let (s, red) ← nodeStatsL nc d n
    pure (acc.1.set n s, if n = root then red else acc.2)) ([], [])

/-- `PatternSolver.py` 470-566 (`solve_set`) as `solveSet`, with `d` frames left for the statistics of 541-542.  The
search itself (271-466) is a loop and does not recurse. -/
def solveSetL (d : Nat) (a : Args) (env : EnvChoice) (g : Gdb H) (root : SetObj H) : M (Report H) := do
  let _ ← root.toStr                                                       -- 482
  let (root, h) ← prepareRoot hash a root
  let loaded := a.useGlobalDb && !a.gdbNoMem
  let solved := if loaded then g.loadSolved root.clauses.length else []    -- 499-503
  let seen := if loaded then g.loadUnsolved root.clauses.length ++ solved else []
  let isSolved := if a.gdbNoMem then g.isSolved h else decide (h ∈ solved) -- 195-200
  if !isSolved then do
    let ps ← if (a.useRuntimeDb || a.useGlobalDb) && env.mainFails then      -- 287-293
        pure { queue := { useDb := a.useRuntimeDb }, uniques := 1, gdb := g }
      else runMain hash a (inputMode a) seen g (maxThreads env.cpu a) env.fails env.sched root
    if a.noStats then
      pure { isSat := ps.isSat, solution := ps.solution, nodesChildren := ps.nodesChildren,
             uniques := ps.uniques, redundants := 0, redundantHits := ps.redundantHits,
             foundInGdb := ps.foundInGdb, gdb := ps.gdb, stats := [] }
    else do
      let (stats, red) ← constructGraphStatsL d h ps.nodesChildren           -- 541-542
      let rs := (stats.get? h).getD { unique := 0, redundants := 0, hits := 0 }
      let g := if a.useGlobalDb then saveInGlobalDb ps.gdb stats red else ps.gdb
      pure { isSat := ps.isSat, solution := ps.solution, nodesChildren := ps.nodesChildren,
             uniques := rs.unique, redundants := rs.redundants, redundantHits := rs.hits,
             foundInGdb := ps.foundInGdb, gdb := g, stats := stats }
  else match g.getSetData h with                                           -- 557-566
    | none => raise .typeError
    | some r => pure { isSat := false, solution := none, nodesChildren := [],
                       uniques := r.uniqueNodes, redundants := r.redundantNodes,
                       redundantHits := r.redundantHits, foundInGdb := 1, gdb := g, stats := [] }

end NDP
