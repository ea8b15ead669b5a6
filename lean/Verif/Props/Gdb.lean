import Verif.Proofs.GKill
import Verif.Proofs.Exec
/-
  C34-C36: runs of one process (`-t 1`) with the global table (`-gdb`).
  `SpecGdb.lean` has the vocabulary: what a row must say (`RowSound`, `TableSound`), which digests must not collide
  (`NoClash`), what a killed run is (`KilledAt`), when the table has a node and everything below it (`CompleteBelow`).
-/
namespace NDP
open Spec SetObj
variable {H : Type} [DecidableEq H] (hash : Str → H) {a : Args}

/-- The table has no row for any set met by the search below `root`. -/
def FreshFor (hash : Str → H) (a : Args) (root : SetObj H) (g : Gdb H) : Prop :=
  ∀ s h, prepareRoot hash a root = pure (s, h) → ∀ x, Met hash (loc a) (inputMode a) s x → hid hash x ∉ Dict.keys g

/-- The digest does not collide on the texts that matter for a run on `root` with the table `g`: `T`, `F`, the rows of
the table, and the sets that can be met below the normalised root. -/
def NoTableClash (hash : Str → H) (a : Args) (root : SetObj H) (g : Gdb H) : Prop :=
  ∀ s h, prepareRoot hash a root = pure (s, h) → NoClash hash (RunTexts (Below (raws s.clauses)) g)

/-- Non-vacuity: the empty table is fresh for every input. -/
theorem freshFor_nil (root : SetObj H) : FreshFor hash a root [] := fun _ _ _ _ _ => by simp [Dict.keys]

/-- Non-vacuity: a digest without collisions never clashes. -/
theorem noTableClash_of_injective (hinj : Function.Injective hash) (root : SetObj H) (g : Gdb H) :
    NoTableClash hash a root g := fun _ _ _ _ _ _ _ e => hinj e

/-- The empty table is right. -/
theorem tableSound_nil : TableSound hash ([] : Gdb H) := fun _ _ h => by simp [Dict.get?] at h

theorem local_loc (a : Args) : Local (loc a) := ⟨rfl, rfl⟩

theorem Loaded.loc {R : Cnf} {root : SetObj H} (h : Loaded R root) : Loaded R root :=
  ⟨h.ne, h.proper, h.value, h.fnm, h.evnd, h.evpos, h.same⟩

theorem Ready.loc {R : Cnf} {s : SetObj H} (h : Ready hash a R s) : Ready hash (loc a) R s :=
  ⟨h.tracks, h.id, h.pos, h.cache⟩

/-- Everything known about a run on a fresh table. -/
theorem fresh_run {env : EnvChoice} (ho : OneProcess a env) {g : Gdb H} {F : Cnf} (hF : Proper F) (hne : F ≠ [])
    {root : SetObj H} (h : Input F root) (hfresh : FreshFor hash a root g) :
    ∃ s ps g' rep repl, prepareRoot hash a root = pure (s, hid hash s) ∧ Ready hash a F s ∧
      (Satisfiable (raws s.clauses) ↔ Satisfiable F) ∧
      runMain hash a (inputMode a) (seenAtStart a g s.clauses.length) g 0 env.fails env.sched s = pure { ps with gdb := g' } ∧
      FreshRun hash a s g ps g' ∧ Result hash (loc a) (inputMode a) F s ps ∧
      solveSet hash a env g root = pure rep ∧ solveSet hash (loc a) env g root = pure repl ∧
      repl = { rep with gdb := repl.gdb } ∧ rep.isSat = ps.isSat ∧ rep.solution = ps.solution ∧
      (a.noStats = true → rep.gdb = g') ∧
      (a.noStats = false → ∃ stats red, constructGraphStats (hid hash s) ps.nodesChildren = pure (stats, red) ∧
        rep.gdb = saveInGlobalDb g' stats red) ∧
      (a.noStats = false → ∀ stats red, constructGraphStats (hid hash s) ps.nodesChildren = pure (stats, red) →
        rep.nodesChildren = ps.nodesChildren ∧ rep.stats = stats) := by
  have hl := h.loaded hF hne
  obtain ⟨s, hs, hr, hsat, _, _⟩ := prepareRoot_ok hash a hF hl
  have hmroot : hid hash (store a.useRuntimeDb s) ∉ Dict.keys g := hfresh s _ hs _ Met.root
  rw [hid_store hash hr.tracks.node] at hmroot
  have hns : ¬ MarkedSolved g (hid hash s) := by
    rintro ⟨r, hm, _⟩
    exact hmroot (List.mem_map.2 ⟨_, hm, rfl⟩)
  obtain ⟨ps, g', h1, h2, h3, h4⟩ := runMain_fresh hash a (inputMode a) hF (hr.loc hash) (hfresh s _ hs)
    (fun _ k hk => mem_seenAtStart a hk) ho.gdb env.fails env.sched
  have hres : Result hash (loc a) (inputMode a) F s ps := by
    obtain ⟨ps', h5, h6⟩ := runMain_ok hash (loc a) (inputMode a) rfl [] g 0 (fails := fun _ => false) (fun _ _ => rfl) (sched := env.sched)
      (Nat.zero_le _) hF (hr.loc hash)
    have e : runMain hash (loc a) (inputMode a) [] g 0 (fun _ => false) env.sched s =
      runMain hash (loc a) (inputMode a) [] g 0 env.fails env.sched s := by
      unfold runMain
      have : mainStep hash (loc a) (inputMode a) [] 0 (fun _ => false) env.sched =
          mainStep hash (loc a) (inputMode a) [] 0 env.fails env.sched := by
        funext st; rw [mainStep_zero, mainStep_zero]
      rw [this]
    rw [e] at h5
    have := (M.pure_inj _ _).1 (h2.symm.trans h5)
    exact this ▸ h6
  have e1 := solveSet_gdb hash a ho g hl hs hns
  have hmt : maxThreads env.cpu (loc a) = 0 := maxThreads_one (loc a) ho.threads _
  have e2 := solveSet_eq hash (loc a) rfl rfl (env := env) (fun _ => ho.conn) g hl.loc hs
  rw [hmt] at e2
  rw [h1, M.pure_bind] at e1
  have e2' : solveSet hash (loc a) env g root = finish (loc a) (hid hash s) ps := by
    rw [e2]
    have : inputMode (loc a) = inputMode a := rfl
    rw [this, h2, M.pure_bind]
  unfold finishG at e1
  unfold finish at e2'
  have hsat' : Satisfiable (raws s.clauses) ↔ Satisfiable F := by
    rw [hsat, SameClauses.satisfiable h.same]
  by_cases hn : a.noStats = true
  · rw [if_pos hn] at e1
    have hn' : (loc a).noStats = true := hn
    rw [if_pos hn'] at e2'
    exact ⟨s, ps, g', _, _, hs, hr, hsat', h1, h4, hres, e1, e2', rfl, rfl, rfl, fun _ => rfl,
      fun hh => by rw [hn] at hh; simp at hh, fun hh => by rw [hn] at hh; simp at hh⟩
  · rw [if_neg hn] at e1
    have hn' : ¬ (loc a).noStats = true := hn
    rw [if_neg hn'] at e2'
    obtain ⟨stats, red, hst, _⟩ := constructGraphStats_ok hres.graph.closed hres.graph.nd (hid hash s)
    simp only [hst, M.pure_bind] at e1 e2'
    exact ⟨s, ps, g', _, _, hs, hr, hsat', h1, h4, hres, e1, e2', rfl, rfl, rfl,
      fun hh => absurd hh hn, fun _ => ⟨stats, red, hst, rfl⟩,
      fun _ st' red' h' => ⟨rfl, congrArg Prod.fst ((M.pure_inj _ _).1 (hst.symm.trans h'))⟩⟩

/-- On a table without any of its nodes a `-gdb` run reports exactly what the same run without `-gdb` reports. -/
theorem gdb_run_is_local {env : EnvChoice} (ho : OneProcess a env) {g : Gdb H} {F : Cnf} (hF : Proper F) (hne : F ≠ [])
    {root : SetObj H} (h : Input F root) (hfresh : FreshFor hash a root g) :
    ∃ rep repl, solveSet hash a env g root = pure rep ∧ solveSet hash (loc a) env g root = pure repl ∧
      repl = { rep with gdb := repl.gdb } := by
  obtain ⟨s, ps, g', rep, repl, _, _, _, _, _, _, e1, e2, e3, _⟩ := fresh_run hash ho hF hne h hfresh
  exact ⟨rep, repl, e1, e2, e3⟩

/-! ### C34 -/

/-- **C34 is false.** For *every* satisfiable formula: the first `-gdb` run (on the empty table, or any table without its
nodes; statistics saved) reports satisfiable, and every later run on the table it leaves reports "not satisfiable",
without a solution. -/
theorem C34_refuted {env : EnvChoice} (ho : OneProcess a env) (hst : a.noStats = false) {g : Gdb H} {F : Cnf}
    (hF : Proper F) (hne : F ≠ []) {root : SetObj H} (h : Input F root) (hcoll : NoCollisions hash (loc a) root)
    (hfresh : FreshFor hash a root g) (hsat : Satisfiable F) :
    ∃ rep, solveSet hash a env g root = pure rep ∧ rep.isSat = true ∧
      ∀ env2, ∃ rep2, solveSet hash a env2 rep.gdb root = pure rep2 ∧ rep2.isSat = false ∧ rep2.solution = none := by
  obtain ⟨s, ps, g', rep, repl, hs, hr, hsat', h1, h4, hres, e1, e2, e3, e4, e5, _, e6, _⟩ := fresh_run hash ho hF hne h hfresh
  obtain ⟨stats, red, e7, e8⟩ := e6 hst
  obtain ⟨r, hr1, hr2⟩ := h4.root
  have hpos := stats_pos hres.graph.closed hres.graph.nd e7
  have hmem : hid hash s ∈ Dict.keys stats := by
    obtain ⟨stats', red', hst', hall⟩ := constructGraphStats_ok hres.graph.closed hres.graph.nd (hid hash s)
    obtain ⟨st, r, V, h1, _⟩ := hall _ hres.graph.rootMem
    have := (M.pure_inj _ _).1 (e7.symm.trans hst')
    cases this
    exact Dict.mem_keys_of_get? h1
  obtain ⟨r', h5, h6, h7⟩ := save_marks (red := red) hpos hr1 hmem
  refine ⟨rep, e1, ?_, fun env2 => ?_⟩
  · rw [e4]
    by_contra hn
    have hn : ps.isSat = false := by simpa using hn
    exact hres.unsat (hcoll s _ hs) hn (hsat'.2 hsat)
  · have hn : r'.numClauses ≤ s.clauses.length := by
      have : r'.numClauses = r.numClauses := congrArg (fun p => p.2.2.2.1) h7
      rw [this, hr2]
    rw [← e8] at h5
    exact solveSet_solved hash a ho.gdb rep.gdb (h.loaded hF hne) hs h5 (by omega) hn

theorem ctx_runTexts {env : EnvChoice} (ho : OneProcess a env) {root s : SetObj H} {h : H} {g : Gdb H} (hw : Wf (raws s.clauses))
    (hs : prepareRoot hash a root = pure (s, h)) (hclash : NoTableClash hash a root g) (hsound : TableSound hash g) :
    Ctx hash a (raws s.clauses) (RunTexts (Below (raws s.clauses)) g) g (seenAtStart a g s.clauses.length) :=
  ⟨hw, hclash s h hs, Or.inl rfl, Or.inr (Or.inl rfl), fun G hG => Or.inr (Or.inr (Or.inl ⟨G, hG, rfl⟩)),
    fun h r hr => Or.inr (Or.inr (Or.inr ⟨h, r, hr, rfl⟩)), hsound,
    fun hm _ _ hr hn => seenAtStart_mem a ho.gdb hm hr (by simpa [raws] using hn)⟩

/-- A later table whose rows are right and have texts among the same ones. -/
theorem ctx_later {env : EnvChoice} (ho : OneProcess a env) {s : SetObj H} {S : Str → Prop} {g g' : Gdb H}
    (hC : Ctx hash a (raws s.clauses) S g (seenAtStart a g s.clauses.length)) (hsound : TableSound hash g')
    (hS : ∀ h r, Dict.get? g' h = some r → S r.body) :
    Ctx hash a (raws s.clauses) S g' (seenAtStart a g' s.clauses.length) :=
  ⟨hC.wf, hC.clash, hC.t, hC.f, hC.below, hS, hsound,
    fun hm _ _ hr hn => seenAtStart_mem a ho.gdb hm hr (by simpa [raws] using hn)⟩

/-- **C34, what holds.** When the formula is not satisfiable, or when the statistics are not saved (`-ns`) and the whole
graph is explored (no `-e`), a second run on the table left by the first one finishes with the same, correct verdict.
(Missing: satisfiable formulas with saved statistics, where the claim is false, `C34_refuted`; first runs on a table that
already has some of the nodes, or stopped by `-e`: see C35.) -/
theorem C34_rerun_same_verdict_partial {env env2 : EnvChoice} (ho : OneProcess a env) (ho2 : OneProcess a env2) {g : Gdb H} {F : Cnf}
    (hF : Proper F) (hne : F ≠ []) {root : SetObj H} (h : Input F root) (hsound : TableSound hash g)
    (hclash : NoTableClash hash a root g) (hfresh : FreshFor hash a root g)
    (hcase : ¬ Satisfiable F ∨ (a.noStats = true ∧ a.exitUponSolving = false)) :
    ∃ rep rep2, solveSet hash a env g root = pure rep ∧ solveSet hash a env2 rep.gdb root = pure rep2 ∧
      (rep.isSat = true ↔ Satisfiable F) ∧ rep2.isSat = rep.isSat := by
  obtain ⟨s, ps, g', rep, repl, hs, hr, hsat', h1, h4, hres, e1, e2, e3, e4, e5, e6, e6', _⟩ := fresh_run hash ho hF hne h hfresh
  have hw : Wf (raws s.clauses) := hr.tracks.shape.wf
  have hC := ctx_runTexts hash ho hw hs hclash hsound
  obtain ⟨l, hG, hstop⟩ := runMain_ginv hash a (inputMode a) g hF hr hC h1
  have hver : ps.isSat = true ↔ Satisfiable F := by
    rw [← hsat']; exact hG.verdict hash a hC hstop
  have hl := h.loaded hF hne
  obtain ⟨r, hr1, hr2⟩ := h4.root
  by_cases hst : a.noStats = true
  · have hcomp : ¬ (a.exitUponSolving = true ∧ ps.isSat = true) := by
      rintro ⟨h5, h6⟩
      rcases hcase with h7 | ⟨_, h7⟩
      · exact h7 (hver.1 h6)
      · rw [h5] at h7; simp at h7
    have hnew : ∀ k ∈ ps.nodesChildren.keys, k ∉ Dict.keys g := by
      intro k hk
      obtain ⟨ks, hks⟩ := Dict.exists_get?_of_mem hk
      obtain ⟨x, hx, rfl, _⟩ := hres.graph.node _ _ hks
      exact hfresh s _ hs x hx
    have hlink : ∀ k j, k ∈ ps.nodesChildren.keys → Links hash g' k j → j ∈ ps.nodesChildren.keys := by
      rintro k j hk ⟨row, hrow, hj, hjT, hjF⟩
      rcases hG.linked k row hrow with h5 | h5
      · exact absurd (Dict.mem_keys_of_get? h5) (hnew k hk)
      · rcases h5 j hj with h5 | h5 | h5
        · exact absurd h5 hjT
        · exact absurd h5 hjF
        · exact h5
    have hroot : hid hash s ∈ ps.nodesChildren.keys := hres.graph.rootMem
    have hstored : Stored hash g' (hid hash s) :=
      ⟨Dict.mem_keys_of_get? hr1, fun k hk => h4.rows hcomp k (hlink _ _ hroot hk)⟩
    have hcb : CompleteBelow hash g' (hid hash s) := by
      intro k hk
      apply h4.rows hcomp
      induction hk with
      | refl => exact hroot
      | tail _ hl ih => exact hlink _ _ ih hl
    have hC' := ctx_later hash ho hC hG.table hG.tabS
    have hns : ¬ MarkedSolved g' (hid hash s) := by
      rintro ⟨row, hm, hu⟩
      rcases h4.marks _ hm with h5 | h5
      · exact hnew _ hroot (List.mem_map.2 ⟨_, h5, rfl⟩)
      · exact hu h5.1
    obtain ⟨k1, k2⟩ := runMain_pulled hash a (inputMode a) g' (fails := env2.fails) (sched := env2.sched) hF hr hC' ho.gdb hstored
    obtain ⟨ps2, hps2⟩ := k2 hcb
    have e7 := solveSet_gdb hash a ho2 g' hl hs hns
    rw [hps2, M.pure_bind] at e7
    unfold finishG at e7
    rw [if_pos hst] at e7
    have hg' : rep.gdb = g' := e6 hst
    refine ⟨rep, _, e1, by rw [hg']; exact e7, by rw [e4]; exact hver, ?_⟩
    simp only
    rw [e4]
    have hv2 : ps2.isSat = true ↔ Satisfiable (raws s.clauses) := by
      obtain ⟨l2, hG2, hstop2⟩ := runMain_ginv hash a (inputMode a) g' hF hr hC' hps2
      exact hG2.verdict hash a hC' hstop2
    rw [hsat', ← hver] at hv2
    exact Bool.eq_iff_iff.2 hv2
  · have hst : a.noStats = false := by simpa using hst
    have hun : ¬ Satisfiable F := by
      rcases hcase with h5 | ⟨h5, _⟩
      · exact h5
      · rw [hst] at h5; simp at h5
    obtain ⟨stats, red, e7, e8⟩ := e6' hst
    have hpos := stats_pos hres.graph.closed hres.graph.nd e7
    have hmem : hid hash s ∈ Dict.keys stats := by
      obtain ⟨stats', red', hst', hall⟩ := constructGraphStats_ok hres.graph.closed hres.graph.nd (hid hash s)
      obtain ⟨st, r, V, h1, _⟩ := hall _ hres.graph.rootMem
      have := (M.pure_inj _ _).1 (e7.symm.trans hst')
      cases this
      exact Dict.mem_keys_of_get? h1
    obtain ⟨r', h5, h6, h7⟩ := save_marks (red := red) hpos hr1 hmem
    have hn : r'.numClauses ≤ s.clauses.length := by
      have : r'.numClauses = r.numClauses := congrArg (fun p => p.2.2.2.1) h7
      rw [this, hr2]
    rw [← e8] at h5
    obtain ⟨rep2, k1, k2, _⟩ := solveSet_solved hash a (env := env2) ho.gdb rep.gdb hl hs h5 (by omega) hn
    refine ⟨rep, rep2, e1, k1, by rw [e4]; exact hver, ?_⟩
    rw [k2, e4]
    cases hp : ps.isSat with
    | false => rfl
    | true => exact absurd (hver.1 hp) hun

/-! ### C35 -/

/-- Statistics do not change what the rows say. -/
theorem TableSound.same {g g' : Gdb H} (h : TableSound hash g) (hs : Gdb.same g g') : TableSound hash g' := by
  intro k r hr
  obtain ⟨r', hr', hc⟩ := hs.symm.get hr
  obtain ⟨mode, G, x, xs, cs, h1, h2, h3, h4, h5, h6, h7⟩ := h k r' hr'
  have e1 : r.body = r'.body := (congrArg (fun p => p.1) hc).symm
  have e2 : r.cid1 = r'.cid1 := (congrArg (fun p => p.2.1) hc).symm
  have e3 : r.cid2 = r'.cid2 := (congrArg (fun p => p.2.2.1) hc).symm
  have e4 : r.numClauses = r'.numClauses := (congrArg (fun p => p.2.2.2.1) hc).symm
  have e5 : r.numVars = r'.numVars := (congrArg (fun p => p.2.2.2.2) hc).symm
  exact ⟨mode, G, x, xs, cs, h1, h2, by rw [e1, h3], by rw [e1, h4], by rw [e4, h5], by rw [e2]; exact h6, by rw [e3, e5]; exact h7⟩

theorem Gdb.same.le {g g' : Gdb H} (h : Gdb.same g g') : Gdb.le g g' := by
  intro k r hr
  obtain ⟨r', hr', hc⟩ := h.get hr
  exact ⟨r', hr', congrArg (fun p => p.1) hc, congrArg (fun p => p.2.1) hc, congrArg (fun p => p.2.2.1) hc,
    congrArg (fun p => p.2.2.2.1) hc, congrArg (fun p => p.2.2.2.2) hc⟩

theorem finishG_same {h : H} {ps : PS H} {rep : Report H} (hrun : finishG a h ps = pure rep) :
    rep.isSat = ps.isSat ∧ rep.solution = ps.solution ∧ Gdb.same ps.gdb rep.gdb := by
  unfold finishG at hrun
  split at hrun
  · rw [← (M.pure_inj _ _).1 hrun]; exact ⟨rfl, rfl, Gdb.same.refl _⟩
  · obtain ⟨⟨stats, red⟩, _, hrun⟩ := M.bind_eq_pure.1 hrun
    rw [← (M.pure_inj _ _).1 hrun]
    exact ⟨rfl, rfl, same_save _ _ _⟩

theorem ready_of_prepare {F : Cnf} (hF : Proper F) (hne : F ≠ []) {root : SetObj H} (h : Input F root) {s : SetObj H} {k : H}
    (hs : prepareRoot hash a root = pure (s, k)) : k = hid hash s ∧ Ready hash a F s ∧ (Satisfiable (raws s.clauses) ↔ Satisfiable F) := by
  obtain ⟨s', hs', hr, hsat, _⟩ := prepareRoot_ok hash a hF (h.loaded hF hne)
  have e := (M.pure_inj _ _).1 (hs.symm.trans hs')
  cases e
  exact ⟨rfl, hr, by rw [hsat, SameClauses.satisfiable h.same]⟩

/-- **C35, what holds: the verdict.** A run on any table whose rows are right (in particular one left by killed runs,
`C35_killed_table_sound`), in which the root is not yet marked as solved, gives the right verdict *if it finishes*, and
leaves a right table that still has every earlier row.  The reported solution may be empty; when it is not, it satisfies
the formula.  (Missing: that the run finishes, and that the solution is not empty: both can fail, `C35_refuted`.) -/
theorem C35_resumed_verdict_partial {env : EnvChoice} (ho : OneProcess a env) {g : Gdb H} {F : Cnf} (hF : Proper F) (hne : F ≠ [])
    {root : SetObj H} (h : Input F root) (hsound : TableSound hash g) (hclash : NoTableClash hash a root g)
    (hns : ∀ s k, prepareRoot hash a root = pure (s, k) → ¬ MarkedSolved g k) {rep : Report H}
    (hrun : solveSet hash a env g root = pure rep) :
    (rep.isSat = true ↔ Satisfiable F) ∧ (rep.isSat = true ↔ rep.solution.isSome) ∧
    (∀ d, rep.solution = some d → d = [] ∨ MakesTrue d F) ∧ TableSound hash rep.gdb ∧ Gdb.le g rep.gdb := by
  have hl := h.loaded hF hne
  obtain ⟨s, hs, _⟩ := prepareRoot_ok hash a hF hl
  obtain ⟨_, hr, hsat⟩ := ready_of_prepare hash hF hne h hs
  rw [solveSet_gdb hash a ho g hl hs (hns s _ hs)] at hrun
  obtain ⟨ps, h1, h2⟩ := M.bind_eq_pure.1 hrun
  have hC := ctx_runTexts hash ho hr.tracks.shape.wf hs hclash hsound
  obtain ⟨l, hG, hstop⟩ := runMain_ginv hash a (inputMode a) g hF hr hC h1
  obtain ⟨e1, e2, e3⟩ := finishG_same h2
  refine ⟨by rw [e1, ← hsat]; exact hG.verdict hash a hC hstop, by rw [e1, e2]; exact hG.both, ?_, hG.table.same hash e3, ?_⟩
  · rw [e2]
    intro d hd
    rcases hG.sol d hd with h3 | h3
    · exact Or.inl h3
    · exact Or.inr h3.1
  · intro k r hr'
    exact e3.le k r (hG.old k r hr')

/-- **C35, what holds: the table.** Whenever a run is killed, the rows left in the table are right, the earlier rows are
still there unchanged, and no new digest collision can arise: the hypotheses of a resumed run are met again. -/
theorem C35_killed_table_sound {env : EnvChoice} (ho : OneProcess a env) {g : Gdb H} {F : Cnf} (hF : Proper F) (hne : F ≠ [])
    {root : SetObj H} (h : Input F root) (hsound : TableSound hash g) (hclash : NoTableClash hash a root g)
    {n : Nat} {s : SetObj H} {k : H} {ps : PS H} (hk : KilledAt hash a g root n s k ps) :
    TableSound hash ps.gdb ∧ NoTableClash hash a root ps.gdb ∧ ∀ k r, Dict.get? g k = some r → Dict.get? ps.gdb k = some r := by
  obtain ⟨_, hr, _⟩ := ready_of_prepare hash hF hne h hk.root
  have hC := ctx_runTexts hash ho hr.tracks.shape.wf hk.root hclash hsound
  obtain ⟨ps0, h0, hp⟩ := hk.run
  obtain ⟨l, hG⟩ := killed_sound hash a (inputMode a) hF hr hC h0 hp
  refine ⟨hG.table, ?_, hG.old⟩
  intro s' k' hs'
  have e := (M.pure_inj _ _).1 (hk.root.symm.trans hs')
  cases e
  intro t u ht hu
  have hmono : ∀ t, RunTexts (Below (raws s.clauses)) ps.gdb t → RunTexts (Below (raws s.clauses)) g t := by
    rintro t (h1 | h1 | h1 | ⟨h, r, h1, rfl⟩)
    · exact Or.inl h1
    · exact Or.inr (Or.inl h1)
    · exact Or.inr (Or.inr (Or.inl h1))
    · exact hG.tabS _ _ h1
  exact hclash s _ hk.root _ _ (hmono t ht) (hmono u hu)

/-- Once the table has the root and its children, a run finishes exactly when the table has everything below the root. -/
theorem C35_resume_iff {env : EnvChoice} (ho : OneProcess a env) {g : Gdb H} {F : Cnf} (hF : Proper F) (hne : F ≠ [])
    {root : SetObj H} (h : Input F root) (hsound : TableSound hash g) (hclash : NoTableClash hash a root g)
    {s : SetObj H} {k : H} (hs : prepareRoot hash a root = pure (s, k)) (hns : ¬ MarkedSolved g k) (hst : Stored hash g k) :
    (∃ rep, solveSet hash a env g root = pure rep) ↔ CompleteBelow hash g k := by
  obtain ⟨rfl, hr, _⟩ := ready_of_prepare hash hF hne h hs
  have hl := h.loaded hF hne
  have hC := ctx_runTexts hash ho hr.tracks.shape.wf hs hclash hsound
  obtain ⟨k1, k2⟩ := runMain_pulled hash a (inputMode a) g (fails := env.fails) (sched := env.sched) hF hr hC ho.gdb hst
  rw [solveSet_gdb hash a ho g hl hs hns]
  constructor
  · rintro ⟨rep, hrun⟩
    obtain ⟨ps, h1, _⟩ := M.bind_eq_pure.1 hrun
    rw [hr.tracks.shape.hid_eq hash]
    exact (k1 ps h1).complete hash a
  · intro hcb
    obtain ⟨ps, hps⟩ := k2 hcb
    rw [hps, M.pure_bind]
    unfold finishG
    split
    · exact ⟨_, rfl⟩
    · have hi := (k1 ps hps).inv
      obtain ⟨stats, red, hst, _⟩ := constructGraphStats_ok hi.closed hi.nd (hid hash s)
      rw [hst, M.pure_bind]
      exact ⟨_, rfl⟩

/-- **C35 is false.** Every run that starts with an empty table and is killed after at least three passes while nodes are
left to expand can never be resumed: no later run on the table it leaves finishes (it ends with an exception). -/
theorem C35_refuted {env2 : EnvChoice} (ho2 : OneProcess a env2) {F : Cnf} (hF : Proper F) (hne : F ≠ [])
    {root : SetObj H} (h : Input F root) (hclash : NoTableClash hash a root [])
    {n : Nat} {s : SetObj H} {k : H} {ps : PS H} (hk : KilledAt hash a [] root n s k ps) (hn : 3 ≤ n)
    (hq : ps.queue.isEmpty = false) : ¬ ∃ rep, solveSet hash a env2 ps.gdb root = pure rep := by
  obtain ⟨rfl, hr, _⟩ := ready_of_prepare hash hF hne h hk.root
  have hC := ctx_runTexts hash ho2 hr.tracks.shape.wf hk.root hclash (tableSound_nil hash)
  obtain ⟨t1, t2, _⟩ := C35_killed_table_sound hash ho2 hF hne h (tableSound_nil hash) hclash hk
  obtain ⟨ps0, h0, hp⟩ := hk.run
  have hseen : seenAtStart a ([] : Gdb H) s.clauses.length = [] := by
    unfold seenAtStart Gdb.loadUnsolved Gdb.loadSolved
    split <;> rfl
  rw [hseen] at hC hp
  obtain ⟨b1, b2, b3, _⟩ := killed_incomplete hash a (inputMode a) hF hr hC ho2.gdb h0 hp hn hq
  rw [C35_resume_iff hash ho2 hF hne h t1 t2 hk.root b3 b1]
  exact b2

/-! ### non-vacuity: a run that can be killed that way -/

/-- `n` passes, run with bounded loops. -/
def passesF (a : Args) (im : Mode) (seen : List H) (fuel : Nat) : Nat → PS H → M (PS H)
  | 0, ps => pure ps
  | n + 1, ps => do
    let ps ← passesF a im seen fuel n ps
    if keepGoing a ps then expandF hash a im fuel seen ps else diverge

theorem passesF_spec {im : Mode} {seen : List H} {fuel : Nat} : ∀ {n : Nat} {ps ps' : PS H},
    passesF hash a im seen fuel n ps = pure ps' → Passes hash a im seen n ps ps' := by
  intro n
  induction n with
  | zero =>
    intro ps ps' h
    rw [← (M.pure_inj _ _).1 h]; exact .refl _
  | succ n ih =>
    intro ps ps' h
    unfold passesF at h
    obtain ⟨ps1, h1, h⟩ := M.bind_eq_pure.1 h
    split at h
    · next hk => exact .step (ih h1) hk ((expandF_le hash a im fuel seen ps1).pure h)
    · exact absurd h (M.diverge_ne_pure _)

def exKilled : Cnf := [[1, 2, 3], [-1, 4], [-2, -3, 5]]

def exGdbArgs : Args := { mode := .flo, useGlobalDb := true, threads := 1 }

/-- The state of the run on `exKilled` after three passes. -/
def exKilledRun : M (SetObj Str × Str × PS Str) := do
  let (s, k) ← prepareRootF (fun s => s) exGdbArgs 50 (mkSet exKilled)
  let ps0 ← initPS (fun s => s) exGdbArgs [] 1 s
  let ps ← passesF (fun s => s) exGdbArgs .flo [] 50 3 ps0
  pure (s, k, ps)

set_option maxRecDepth 100000 in
theorem exKilledRun_ok : (match exKilledRun with | some (.ok (_, _, ps)) => ps.queue.isEmpty | _ => true) = false := by decide

/-- The hypotheses of `C35_refuted` are met: the run on `exKilled` after three passes. -/
example : ∃ s k ps, KilledAt (fun s : Str => s) exGdbArgs [] (mkSet exKilled) 3 s k ps ∧ ps.queue.isEmpty = false ∧
    Proper exKilled ∧ Input exKilled (mkSet (H := Str) exKilled) ∧ NoTableClash (fun s : Str => s) exGdbArgs (mkSet exKilled) [] ∧
    ∀ env2, OneProcess exGdbArgs env2 → ¬ ∃ rep, solveSet (fun s : Str => s) exGdbArgs env2 ps.gdb (mkSet exKilled) = pure rep := by
  have hF : Proper exKilled := by unfold exKilled Proper; decide
  have hI := input_mkSet (H := Str) hF (by simp [exKilled])
  have hc := noTableClash_of_injective (H := Str) (fun s => s) (a := exGdbArgs) (fun _ _ h => h) (mkSet exKilled) []
  have hok := exKilledRun_ok
  rcases M.cases exKilledRun with e | ⟨er, e⟩ | ⟨⟨s, k, ps⟩, e⟩
  · rw [e] at hok; exact absurd hok (by decide)
  · rw [e] at hok; exact absurd hok (by intro h; cases h)
  · rw [e] at hok
    have hq : ps.queue.isEmpty = false := hok
    unfold exKilledRun at e
    obtain ⟨⟨s', k'⟩, h1, e⟩ := M.bind_eq_pure.1 e
    obtain ⟨ps0, h2, e⟩ := M.bind_eq_pure.1 e
    obtain ⟨ps', h3, e⟩ := M.bind_eq_pure.1 e
    have e := (M.pure_inj _ _).1 e
    cases e
    have hk : KilledAt (fun s : Str => s) exGdbArgs [] (mkSet exKilled) 3 s k ps :=
      ⟨(prepareRootF_le (fun s : Str => s) exGdbArgs 50 (mkSet exKilled)).pure h1, ps0, h2, passesF_spec (fun s : Str => s) h3⟩
    exact ⟨s, k, ps, hk, hq, hF, hI, hc, fun env2 ho2 => C35_refuted (fun s : Str => s) ho2 hF (by simp [exKilled]) hI hc hk (by omega) hq⟩

/-- The hypotheses of `C34_refuted` are met: `exKilled` is satisfiable; the first run says so, the second one denies it. -/
example : ∃ rep rep2, solveSet (fun s : Str => s) exGdbArgs {} [] (mkSet exKilled) = pure rep ∧ rep.isSat = true ∧
    solveSet (fun s : Str => s) exGdbArgs {} rep.gdb (mkSet exKilled) = pure rep2 ∧ rep2.isSat = false ∧ Satisfiable exKilled := by
  have hF : Proper exKilled := by unfold exKilled Proper; decide
  have hI := input_mkSet (H := Str) hF (by simp [exKilled])
  have hs : Satisfiable exKilled := by
    refine ⟨fun v => decide (v ≠ 1 ∧ v ≠ 3), ?_⟩
    unfold exKilled Sat
    decide
  obtain ⟨rep, h1, h2, h3⟩ := C34_refuted (fun s : Str => s) (a := exGdbArgs) (env := {}) ⟨rfl, rfl, rfl⟩ rfl hF (by simp [exKilled]) hI
    (noCollisions_of_injective (fun _ _ h => h) _ hI hF (by simp [exKilled])) (freshFor_nil _ _) hs
  obtain ⟨rep2, h4, h5, _⟩ := h3 {}
  exact ⟨rep, rep2, h1, h2, h4, h5, hs⟩

end NDP
