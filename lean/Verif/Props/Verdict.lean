import Verif.Proofs.Solve
/-
  C01-C07: the verdict and the solution of a run (without the global DB).
  `solveSet hash a env g root` is the model of `PatternSolver.solve_set`; `hash` is the SHA-1 digest, `a` the
  command line options, `env` the environment (number of CPUs, failing DB connections, order in which worker
  messages arrive), `g` the global table (not consulted here).
-/
namespace NDP
open Spec SetObj
variable {H : Type} [DecidableEq H]

/-- The set object `root` holds the formula `F`, as delivered by the input readers: the same clauses (in some
order), nothing assigned or renamed yet. -/
structure Input (F : Cnf) (root : SetObj H) : Prop where
  same : SameClauses (raws root.clauses) F
  value : root.value = none
  fnm : root.finalNamesMap = []
  ev : root.evaluatedVars = []

/-- The set object built from the clauses of `F` with `Clause(...)` and `add_clause`, as all readers do. -/
def mkSet (F : Cnf) : SetObj H := addAll {} 1 F

/-- No two different sets met by the search below `root` have the same digest. -/
def NoCollisions (hash : Str → H) (a : Args) (root : SetObj H) : Prop :=
  ∀ s h, prepareRoot hash a root = pure (s, h) → NoColl hash a (inputMode a) s

/-- A run that does not use the global DB. -/
structure Local (a : Args) : Prop where
  gdb : a.useGlobalDb = false
  nomem : a.gdbNoMem = false

theorem SameClauses.proper {F G : Cnf} (h : SameClauses F G) (hG : Proper G) : Proper F := by
  intro c hc
  obtain ⟨d, hd, hp⟩ := SameClauses.exists_perm h hc
  obtain ⟨h1, h2, h3⟩ := hG d hd
  refine ⟨?_, ?_, ?_⟩
  · rintro rfl; exact h1 (by simpa using hp.symm)
  · exact ((hp.map Int.natAbs).nodup_iff).2 h2
  · intro h0; exact h3 (hp.mem_iff.1 h0)

theorem Input.loaded {F : Cnf} {root : SetObj H} (h : Input F root) (hF : Proper F) (hne : F ≠ []) :
    Loaded F root := by
  refine ⟨?_, SameClauses.proper h.same hF, h.value, h.fnm, by simp [h.ev], ?_, ?_⟩
  · intro e
    apply hne
    exact (SameClauses.eq_nil h.same).1 (by simp [e, raws])
  · intro k hk; simp [h.ev] at hk
  · rw [h.ev, residual_nil_dict]; exact h.same

theorem addAll_nodup (F : Cnf) (hF : Proper F) (s : SetObj H) (i : Nat) (hv : s.value ≠ some false)
    (hne : F ≠ []) :
    addAll s i F = { s with clauses := s.clauses ++ renumber i (F.map sortAbs), value := none } := by
  induction F generalizing s i with
  | nil => exact absurd rfl hne
  | cons c F ih =>
    simp only [addAll]
    have hA : s.addClause { Clause.ofList c with initialIndex := i } =
        { s with clauses := s.clauses ++ [{ raw := sortAbs c, initialIndex := i }], value := none } := by
      rw [Clause.ofList_nodup (hF c (by simp)).2.1]
      unfold addClause
      simp [hv]
    rw [hA]
    by_cases hF' : F = []
    · subst hF'; simp [addAll, renumber]
    · rw [ih (fun c hc => hF c (by simp [hc])) _ _ (by simp) hF']
      simp [renumber]

/-- Non-vacuity: every proper formula has such a set object. -/
theorem input_mkSet {F : Cnf} (hF : Proper F) (hne : F ≠ []) : Input F (mkSet (H := H) F) := by
  unfold mkSet
  rw [addAll_nodup F hF _ _ (by simp) hne]
  refine ⟨?_, rfl, rfl, rfl⟩
  simp only [List.nil_append, raws_renumber]
  have := unordered_map_congr F sortAbs (fun x => x) (fun c _ => sortAbs_perm c)
  unfold SameClauses
  rw [this]; simp

/-- Non-vacuity: a digest that never collides exists (the body itself), so `NoCollisions` can be met by every
input; it is also implied by injectivity of the digest on serialised formulas. -/
theorem noCollisions_of_injective {hash : Str → H} (hinj : Function.Injective hash) (a : Args) {F : Cnf} {root : SetObj H}
    (h : Input F root) (hF : Proper F) (hne : F ≠ []) : NoCollisions hash a root := by
  intro s k hs x y hx hy e
  obtain ⟨s', hs', hr, _⟩ := prepareRoot_ok hash a hF (h.loaded hF hne)
  rw [hs] at hs'
  have : s = s' := by
    have := congrArg (fun z : M (SetObj H × H) => z) hs'
    simp at this; exact this.1
  subst this
  have h1 := hx.tracks hash a (inputMode a) hF hr.tracks
  have h2 := hy.tracks hash a (inputMode a) hF hr.tracks
  exact bodyStr_inj h1.node.ne h2.node.ne h1.node.cne h2.node.cne (hinj e)

/-- A finished run reports exactly satisfiability, and a solution when it does. -/
theorem solveSet_verdict (hash : Str → H) {a : Args} (ha : Local a) {env : EnvChoice}
    (hf : a.useRuntimeDb = true → env.mainFails = false) {g : Gdb H} {F : Cnf} (hF : Proper F) (hne : F ≠ [])
    {root : SetObj H} (h : Input F root) {rep : Report H} (hrun : solveSet hash a env g root = pure rep) :
    (rep.isSat = true ↔ rep.solution.isSome) ∧
    (∀ d, rep.solution = some d → MakesTrue d F ∧ SolKeys d) ∧
    (NoCollisions hash a root → rep.isSat = false → ¬ Satisfiable F) := by
  obtain ⟨s, ps, hs, hr, hsat, hres, hrep⟩ := solveSet_sound hash a ha.gdb ha.nomem hf hF (h.loaded hF hne) hrun
  refine ⟨by rw [hrep.isSat, hrep.solution]; exact hres.sat, by rw [hrep.solution]; exact hres.sol, ?_⟩
  intro hcoll hns
  rw [hrep.isSat] at hns
  have := hres.unsat (hcoll s _ hs) hns
  rw [hsat, SameClauses.satisfiable h.same] at this
  exact this

theorem MakesTrue.satisfiable {d : Dict Int Bool} {F : Cnf} (h : MakesTrue d F) : Satisfiable F := by
  refine ⟨fun v => (d.get? (v : Int)).getD false, fun c hc => ?_⟩
  obtain ⟨l, hl, hv⟩ := h c hc
  refine ⟨l, hl, ?_⟩
  unfold partialVal at hv
  unfold litVal
  match hg : d.get? (l.natAbs : Int) with
  | none => rw [hg] at hv; simp at hv
  | some b =>
    rw [hg] at hv
    simp only [hg, Option.getD_some]
    simpa using hv

/-! ### C01 -/

/-- **C01** A SATISFIABLE verdict is sound: whatever the options, the schedule of the workers, failing workers and
even hash collisions, if a run on `F` finishes and reports satisfiable then `F` is satisfiable. -/
theorem C01_sat_sound (hash : Str → H) {a : Args} (ha : Local a) {env : EnvChoice}
    (hf : a.useRuntimeDb = true → env.mainFails = false) {g : Gdb H} {F : Cnf} (hF : Proper F) (hne : F ≠ [])
    {root : SetObj H} (h : Input F root) {rep : Report H} (hrun : solveSet hash a env g root = pure rep)
    (hsat : rep.isSat = true) : Satisfiable F := by
  obtain ⟨h1, h2, _⟩ := solveSet_verdict hash ha hf hF hne h hrun
  obtain ⟨d, hd⟩ := Option.isSome_iff_exists.1 (h1.1 hsat)
  exact (h2 d hd).1.satisfiable

/-! ### C02 -/

/-- **C02** A not-satisfiable verdict is sound, provided no two sets met in the search have colliding digests. -/
theorem C02_unsat_sound (hash : Str → H) {a : Args} (ha : Local a) {env : EnvChoice}
    (hf : a.useRuntimeDb = true → env.mainFails = false) {g : Gdb H} {F : Cnf} (hF : Proper F) (hne : F ≠ [])
    {root : SetObj H} (h : Input F root) (hcoll : NoCollisions hash a root) {rep : Report H}
    (hrun : solveSet hash a env g root = pure rep) (hns : rep.isSat = false) : ¬ Satisfiable F :=
  (solveSet_verdict hash ha hf hF hne h hrun).2.2 hcoll hns

/-! ### C03 -/

/-- **C03** Solving always finishes, without an exception: every non-empty proper formula, every mode and option
(no global DB), every schedule in which all workers are eventually heard. -/
theorem C03_terminates (hash : Str → H) {a : Args} (ha : Local a) {env : EnvChoice} (hf : Fair a env) (g : Gdb H)
    {F : Cnf} (hF : Proper F) (hne : F ≠ []) {root : SetObj H} (h : Input F root) :
    ∃ rep, solveSet hash a env g root = pure rep :=
  solveSet_ok hash a ha.gdb ha.nomem hf g hF (h.loaded hF hne)

/-! ### C04 -/

/-- **C04** The reported solution makes a literal of every clause of the input true, in the input's numbering, and lists positive
variables in increasing order. -/
theorem C04_solution_correct (hash : Str → H) {a : Args} (ha : Local a) {env : EnvChoice}
    (hf : a.useRuntimeDb = true → env.mainFails = false) {g : Gdb H} {F : Cnf} (hF : Proper F) (hne : F ≠ [])
    {root : SetObj H} (h : Input F root) {rep : Report H} (hrun : solveSet hash a env g root = pure rep)
    (hsat : rep.isSat = true) : ∃ d, rep.solution = some d ∧ SolKeys d ∧ MakesTrue d F := by
  obtain ⟨h1, h2, _⟩ := solveSet_verdict hash ha hf hF hne h hrun
  obtain ⟨d, hd⟩ := Option.isSome_iff_exists.1 (h1.1 hsat)
  exact ⟨d, hd, (h2 d hd).2, (h2 d hd).1⟩

/-! ### C05, C06, C07 -/

/-- The verdict is exactly satisfiability. -/
theorem verdict_iff (hash : Str → H) {a : Args} (ha : Local a) {env : EnvChoice}
    (hf : a.useRuntimeDb = true → env.mainFails = false) {g : Gdb H} {F : Cnf} (hF : Proper F) (hne : F ≠ [])
    {root : SetObj H} (h : Input F root) (hcoll : NoCollisions hash a root) {rep : Report H}
    (hrun : solveSet hash a env g root = pure rep) : rep.isSat = true ↔ Satisfiable F := by
  constructor
  · exact C01_sat_sound hash ha hf hF hne h hrun
  · intro hs
    cases hb : rep.isSat
    · exact absurd hs (C02_unsat_sound hash ha hf hF hne h hcoll hrun hb)
    · rfl

/-- **C05** Stopping at the first solution does not change the verdict, and its solution is correct. -/
theorem C05_exit_same_verdict (hash : Str → H) {a : Args} (ha : Local a) {env env' : EnvChoice}
    (hf : a.useRuntimeDb = true → env.mainFails = false) (hf' : a.useRuntimeDb = true → env'.mainFails = false)
    {g g' : Gdb H} {F : Cnf} (hF : Proper F) (hne : F ≠ [])
    {root root' : SetObj H} (h : Input F root) (h' : Input F root')
    (hcoll : NoCollisions hash { a with exitUponSolving := true } root)
    (hcoll' : NoCollisions hash { a with exitUponSolving := false } root') {rep rep' : Report H}
    (hrun : solveSet hash { a with exitUponSolving := true } env g root = pure rep)
    (hrun' : solveSet hash { a with exitUponSolving := false } env' g' root' = pure rep') :
    rep.isSat = rep'.isSat ∧ (∀ d, rep.solution = some d → MakesTrue d F) := by
  have h1 := verdict_iff hash (a := { a with exitUponSolving := true }) ⟨ha.gdb, ha.nomem⟩ hf hF hne h hcoll hrun
  have h2 := verdict_iff hash (a := { a with exitUponSolving := false }) ⟨ha.gdb, ha.nomem⟩ hf' hF hne h' hcoll' hrun'
  refine ⟨Bool.eq_iff_iff.2 (h1.trans h2.symm), fun d hd => ?_⟩
  exact ((solveSet_verdict hash (a := { a with exitUponSolving := true }) ⟨ha.gdb, ha.nomem⟩ hf hF hne h hrun).2.1 d hd).1

/-- **C06** The verdict does not depend on mode, sorting, thief method, runtime DB, or any other option. -/
theorem C06_mode_independent (hash : Str → H) {a b : Args} (ha : Local a) (hb : Local b) {env env' : EnvChoice}
    (hf : a.useRuntimeDb = true → env.mainFails = false) (hf' : b.useRuntimeDb = true → env'.mainFails = false)
    {g g' : Gdb H} {F : Cnf} (hF : Proper F) (hne : F ≠ [])
    {root root' : SetObj H} (h : Input F root) (h' : Input F root')
    (hcoll : NoCollisions hash a root) (hcoll' : NoCollisions hash b root') {rep rep' : Report H}
    (hrun : solveSet hash a env g root = pure rep) (hrun' : solveSet hash b env' g' root' = pure rep') :
    rep.isSat = rep'.isSat :=
  Bool.eq_iff_iff.2 ((verdict_iff hash ha hf hF hne h hcoll hrun).trans (verdict_iff hash hb hf' hF hne h' hcoll' hrun').symm)

/-- **C07** With any number of worker processes, in whatever order they finish, the run ends with the verdict of the
single-process run, and its solution (if any) is correct. -/
theorem C07_threads_same_verdict (hash : Str → H) {a : Args} (ha : Local a) (n : Nat) {env env' : EnvChoice}
    (hf : Fair { a with threads := n } env) (hf' : a.useRuntimeDb = true → env'.mainFails = false)
    {g g' : Gdb H} {F : Cnf} (hF : Proper F) (hne : F ≠ [])
    {root : SetObj H} (h : Input F root)
    (hcoll : NoCollisions hash { a with threads := n } root) (hcoll' : NoCollisions hash { a with threads := 1 } root)
    {rep' : Report H} (hrun' : solveSet hash { a with threads := 1 } env' g' root = pure rep') :
    ∃ rep, solveSet hash { a with threads := n } env g root = pure rep ∧ rep.isSat = rep'.isSat ∧
      (rep.isSat = true → ∃ d, rep.solution = some d ∧ MakesTrue d F) := by
  obtain ⟨rep, hrun⟩ := C03_terminates hash (a := { a with threads := n }) ⟨ha.gdb, ha.nomem⟩ hf g hF hne h
  refine ⟨rep, hrun, ?_, ?_⟩
  · exact C06_mode_independent hash (a := { a with threads := n }) (b := { a with threads := 1 })
      ⟨ha.gdb, ha.nomem⟩ ⟨ha.gdb, ha.nomem⟩ hf.main hf' hF hne h h hcoll hcoll' hrun hrun'
  · intro hs
    obtain ⟨d, h1, _, h2⟩ := C04_solution_correct hash (a := { a with threads := n }) ⟨ha.gdb, ha.nomem⟩ hf.main hF hne h hrun hs
    exact ⟨d, h1, h2⟩

/-! ### non-vacuity -/

/-- A satisfiable formula whose search branches and merges. -/
def exSat : Cnf := [[1, 2], [-1, 3], [-2, -3], [2, 3, 4]]
/-- An unsatisfiable formula. -/
def exUnsat : Cnf := [[1, 2], [-1, 2], [1, -2], [-1, -2]]

theorem exSat_proper : Proper exSat := by
  intro c hc
  simp [exSat] at hc
  rcases hc with rfl | rfl | rfl | rfl <;> decide

theorem exUnsat_proper : Proper exUnsat := by
  intro c hc
  simp [exUnsat] at hc
  rcases hc with rfl | rfl | rfl | rfl <;> decide

theorem exSat_satisfiable : Satisfiable exSat := by
  refine ⟨fun v => v == 1 || v == 3, ?_⟩
  intro c hc
  simp [exSat] at hc
  rcases hc with rfl | rfl | rfl | rfl <;> decide

theorem exUnsat_unsatisfiable : ¬ Satisfiable exUnsat := by
  rintro ⟨α, h⟩
  have h1 := h [1, 2] (by simp [exUnsat])
  have h2 := h [-1, 2] (by simp [exUnsat])
  have h3 := h [1, -2] (by simp [exUnsat])
  have h4 := h [-1, -2] (by simp [exUnsat])
  simp [litVal] at h1 h2 h3 h4
  cases e1 : α 1 <;> cases e2 : α 2 <;> simp_all

/-- Every option set without the global DB has an environment meeting the hypotheses. -/
theorem fair_exists (a : Args) : ∃ env, Fair a env :=
  ⟨{ sched := List.replicate (maxThreads 4 a) true }, fun _ => rfl, fun _ _ => rfl, by simp⟩

/-- C01, C03, C04, C07 on a concrete formula, with three workers, a runtime DB and a real run: reported satisfiable. -/
example : ∃ (env : EnvChoice) (rep : Report Str),
    solveSet (fun s => s) { threads := 3, useRuntimeDb := true, mode := .lou } env [] (mkSet exSat) = pure rep ∧
      rep.isSat = true := by
  obtain ⟨env, hf⟩ := fair_exists { threads := 3, useRuntimeDb := true, mode := .lou }
  have hI := input_mkSet (H := Str) exSat_proper (by simp [exSat])
  obtain ⟨rep, hrun⟩ := C03_terminates (fun s : Str => s) ⟨rfl, rfl⟩ hf [] exSat_proper (by simp [exSat]) hI
  refine ⟨env, rep, hrun, ?_⟩
  exact (verdict_iff (fun s : Str => s) ⟨rfl, rfl⟩ hf.main exSat_proper (by simp [exSat]) hI
    (noCollisions_of_injective (fun _ _ h => h) _ hI exSat_proper (by simp [exSat])) hrun).2 exSat_satisfiable

/-- C02, C05, C06 on a concrete formula: reported not satisfiable. -/
example : ∃ (env : EnvChoice) (rep : Report Str),
    solveSet (fun s => s) { mode := .flop, thief := true, exitUponSolving := true } env [] (mkSet exUnsat) = pure rep ∧
      rep.isSat = false := by
  obtain ⟨env, hf⟩ := fair_exists { mode := .flop, thief := true, exitUponSolving := true }
  have hI := input_mkSet (H := Str) exUnsat_proper (by simp [exUnsat])
  obtain ⟨rep, hrun⟩ := C03_terminates (fun s : Str => s) ⟨rfl, rfl⟩ hf [] exUnsat_proper (by simp [exUnsat]) hI
  refine ⟨env, rep, hrun, ?_⟩
  cases hb : rep.isSat
  · rfl
  · exact absurd (C01_sat_sound (fun s : Str => s) ⟨rfl, rfl⟩ hf.main exUnsat_proper (by simp [exUnsat]) hI hrun hb)
      exUnsat_unsatisfiable

end NDP
