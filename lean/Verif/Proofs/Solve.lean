import Verif.Proofs.Threads
import Verif.Proofs.Stats
/- `solve_set` as a whole (no global DB). -/
namespace NDP
open Spec SetObj
variable {H : Type} [DecidableEq H] (hash : Str → H) (a : Args)

/-- A set handed to the solver for the formula `R`: its clauses are what its partial assignment (empty unless
the input was preprocessed) leaves of `R`. -/
structure Loaded (R : Cnf) (root : SetObj H) : Prop where
  ne : root.clauses ≠ []
  proper : Proper (raws root.clauses)
  value : root.value = none
  fnm : root.finalNamesMap = []
  evnd : root.evaluatedVars.keys.Nodup
  evpos : ∀ k ∈ root.evaluatedVars.keys, 1 ≤ k
  same : SameClauses (raws root.clauses) (residual root.evaluatedVars R)

theorem loaded_pre {R : Cnf} {root : SetObj H} (h : Loaded R root) :
    Pre R { root with originalValues := root.getVariables.map fun v => (v, v) } := by
  have hget : ∀ v, (Dict.get? (root.getVariables.map fun v => (v, v)) v) =
      if v ∈ varsOf (raws root.clauses) then some v else none := by
    intro v
    rw [Dict.get?_map_self, getVariables_eq]
  have hmap : mapCnf (fun v => (Dict.get? (root.getVariables.map fun v => (v, v)) v).getD 0) (raws root.clauses)
      = raws root.clauses := by
    conv_rhs => rw [← mapCnf_id (raws root.clauses)]
    apply mapCnf_congr
    intro v hv
    rw [hget, if_pos hv]; rfl
  refine ⟨h.ne, ?_, ?_, ?_, ?_, ?_, h.value, h.fnm, h.evnd, ?_, h.evpos⟩
  · intro c hc
    exact (h.proper c.raw (List.mem_map.2 ⟨c, hc, rfl⟩)).1
  · intro v hv
    obtain ⟨c, hc, l, hl, rfl⟩ := mem_varsOf.1 hv
    have := (h.proper c hc).2.2
    have : l ≠ 0 := fun e => this (e ▸ hl)
    omega
  · intro v hv
    simp only
    rw [hget, if_pos hv]; rfl
  · intro u hu v hv e
    simp only at e
    rw [hget, hget, if_pos hu, if_pos hv] at e
    simpa using e
  · simp only
    rw [hmap]; exact h.same
  · simp only
    have : Dict.keys (root.getVariables.map fun v => (v, v)) = root.getVariables := by
      simp [Dict.keys, List.map_map, Function.comp_def]
    rw [this, getVariables_eq]
    exact nodup_dedup _

/-- Preparing the root: normal form, identity. -/
theorem prepareRoot_ok {R : Cnf} (hR : Proper R) {root : SetObj H} (h : Loaded R root) :
    ∃ s, prepareRoot hash a root = pure (s, hid hash s) ∧ Ready hash a R s ∧
      (Satisfiable (raws s.clauses) ↔ Satisfiable (raws root.clauses)) ∧ s.clauses.length = root.clauses.length ∧
      SameClauses (mapCnf (bk s.finalNamesMap) (raws s.clauses)) (raws root.clauses) := by
  obtain ⟨s, hlo, htr, _, hev, hlen, hsame⟩ := toLo_tracks hR a.mode a.sortBySize a.thief (loaded_pre h)
  have hbody : s.toStr = pure (bodyStr s.clauses) := toStr_ok htr.node.value htr.node.ne
  have hgh : s.getHash hash true = pure (hid hash s, { s with computedHash := some (hid hash s) }) := by
    unfold getHash
    rw [hbody]
    cases s.computedHash <;> rfl
  refine ⟨{ s with computedHash := some (hid hash s), id := some (hid hash s) }, ?_, ?_, ?_, hlen, hsame⟩
  · unfold prepareRoot
    simp only [hlo, M.pure_bind, hgh]
    rfl
  · refine ⟨⟨{ htr.node with }, htr.pos, htr.inj, htr.same, htr.evnd, htr.nvars, htr.ovnd, htr.evp⟩, rfl, ?_, Or.inl rfl⟩
    intro _ k hk
    simp only [hev] at hk
    have := h.evpos k hk
    omega
  · show Satisfiable (raws s.clauses) ↔ _
    rw [htr.sat_iff, hev]
    exact (SameClauses.satisfiable h.same).symm

/-- All DB connections succeed, and the schedule is long enough for every worker to be heard. -/
structure Fair (env : EnvChoice) : Prop where
  main : a.useRuntimeDb = true → env.mainFails = false
  workers : a.useRuntimeDb = true → ∀ i, env.fails i = false
  sched : maxThreads env.cpu a ≤ env.sched.count true

theorem Graph.closedGraph {im : Mode} {s0 : SetObj H} {nc : Dict H (List H)} (h : Graph hash a im s0 nc) :
    ClosedGraph nc := h.closed

/-- What `solve_set` does after the search. -/
def finish (h : H) (ps : PS H) : M (Report H) := do
  if a.noStats then
    pure { isSat := ps.isSat, solution := ps.solution, nodesChildren := ps.nodesChildren,
           uniques := ps.uniques, redundants := 0, redundantHits := ps.redundantHits,
           foundInGdb := ps.foundInGdb, gdb := ps.gdb, stats := [] }
  else do
    let (stats, _) ← constructGraphStats h ps.nodesChildren
    let rs := (stats.get? h).getD { unique := 0, redundants := 0, hits := 0 }
    pure { isSat := ps.isSat, solution := ps.solution, nodesChildren := ps.nodesChildren,
           uniques := rs.unique, redundants := rs.redundants, redundantHits := rs.hits,
           foundInGdb := ps.foundInGdb, gdb := ps.gdb, stats := stats }

/-- How the report is related to the final state of the search. -/
structure Reported (h : H) (ps : PS H) (rep : Report H) : Prop where
  isSat : rep.isSat = ps.isSat
  solution : rep.solution = ps.solution
  nodesChildren : rep.nodesChildren = ps.nodesChildren
  gdb : rep.gdb = ps.gdb
  stats : a.noStats = false → ∃ red, constructGraphStats h ps.nodesChildren = pure (rep.stats, red) ∧
    ∃ st, rep.stats.get? h = some st ∧ rep.uniques = st.unique ∧
      rep.redundants = st.redundants ∧ rep.redundantHits = st.hits
  counters : a.noStats = true → rep.uniques = ps.uniques ∧ rep.redundants = 0 ∧
    rep.redundantHits = ps.redundantHits ∧ rep.stats = []

theorem finish_ok {im : Mode} {R : Cnf} {s : SetObj H} {ps : PS H} (hres : Result hash a im R s ps) :
    ∃ rep, finish a (hid hash s) ps = pure rep ∧ Reported a (hid hash s) ps rep := by
  unfold finish
  by_cases hn : a.noStats = true
  · refine ⟨_, by rw [if_pos hn], rfl, rfl, rfl, rfl, ?_, fun _ => ⟨rfl, rfl, rfl, rfl⟩⟩
    intro hn'; rw [hn] at hn'; simp at hn'
  · obtain ⟨stats, red, hst, hall⟩ := constructGraphStats_ok hres.graph.closed hres.graph.nd (hid hash s)
    obtain ⟨st, r, V, h1, _⟩ := hall _ hres.graph.rootMem
    refine ⟨_, by rw [if_neg hn, hst]; rfl, rfl, rfl, rfl, rfl, ?_, fun h => absurd h hn⟩
    intro _
    refine ⟨red, hst, st, h1, ?_⟩
    simp only [h1]
    exact ⟨rfl, rfl, rfl⟩

theorem solveSet_eq (hg : a.useGlobalDb = false) (hm : a.gdbNoMem = false) {env : EnvChoice}
    (hf : a.useRuntimeDb = true → env.mainFails = false)
    (g : Gdb H) {R : Cnf} {root : SetObj H} (h : Loaded R root) {s : SetObj H}
    (hs : prepareRoot hash a root = pure (s, hid hash s)) :
    solveSet hash a env g root =
      runMain hash a (inputMode a) [] g (maxThreads env.cpu a) env.fails env.sched s >>= finish a (hid hash s) := by
  have ht : root.toStr = pure (bodyStr root.clauses) := toStr_ok h.value h.ne
  have hmf : ((a.useRuntimeDb || false) && env.mainFails) = false := by
    cases hd : a.useRuntimeDb
    · simp
    · simp [hf hd]
  unfold solveSet
  simp only [ht, hs, M.pure_bind, hg, hm, Bool.false_and, Bool.false_eq_true, if_false, List.not_mem_nil,
    decide_false, Bool.not_false, if_true, hmf]
  rfl

/-- `solve_set` finishes under every fair schedule. -/
theorem solveSet_ok (hg : a.useGlobalDb = false) (hm : a.gdbNoMem = false) {env : EnvChoice} (hf : Fair a env)
    (g : Gdb H) {R : Cnf} (hR : Proper R) {root : SetObj H} (h : Loaded R root) :
    ∃ rep, solveSet hash a env g root = pure rep := by
  obtain ⟨s, hs, hr, _, _, _⟩ := prepareRoot_ok hash a hR h
  obtain ⟨ps, hps, hres⟩ := runMain_ok hash a (inputMode a) hg [] g (maxThreads env.cpu a)
    (fun hd => hf.workers hd) hf.sched hR hr
  obtain ⟨rep, hrep, _⟩ := finish_ok hash a hres
  refine ⟨rep, ?_⟩
  rw [solveSet_eq hash a hg hm hf.main g h hs, hps]
  exact hrep

/-- Whenever `solve_set` finishes, under any schedule and any worker failures, its report is that of a correct
search. -/
theorem solveSet_sound (hg : a.useGlobalDb = false) (hm : a.gdbNoMem = false) {env : EnvChoice}
    (hf : a.useRuntimeDb = true → env.mainFails = false)
    {g : Gdb H} {R : Cnf} (hR : Proper R) {root : SetObj H} (h : Loaded R root) {rep : Report H}
    (hrun : solveSet hash a env g root = pure rep) :
    ∃ s ps, prepareRoot hash a root = pure (s, hid hash s) ∧ Ready hash a R s ∧
      (Satisfiable (raws s.clauses) ↔ Satisfiable (raws root.clauses)) ∧
      Result hash a (inputMode a) R s ps ∧ Reported a (hid hash s) ps rep := by
  obtain ⟨s, hs, hr, hsat, _, _⟩ := prepareRoot_ok hash a hR h
  rw [solveSet_eq hash a hg hm hf g h hs, M.bind_eq_pure] at hrun
  obtain ⟨ps, hps, hfin⟩ := hrun
  have hres := runMain_sound hash a (inputMode a) hg [] g (maxThreads env.cpu a) hR hr hps
  obtain ⟨rep', hrep', hR'⟩ := finish_ok hash a hres
  rw [hfin] at hrep'
  have : rep = rep' := by simpa using hrep'
  subst this
  exact ⟨s, ps, hs, hr, hsat, hres, hR'⟩

end NDP
