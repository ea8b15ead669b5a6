import Verif.Model.Program
import Verif.Props.Reader
import Verif.Props.Graph
/-
  C90: the program as it is run from the command line.
-/
namespace NDP
open Spec SetObj
variable {H : Type}

/-! ### specification -/

/-- What `argparse` guarantees (the two mutually exclusive groups of `main.py` 139-148): exactly one input, and at most one
of `-v`, `-vv`, `-q`, `-qn`. -/
structure Parsed (o : Opts) : Prop where
  one : (o.lineInput.isSome = true ∧ o.lineFile = none ∧ o.dimacs = none) ∨
    (o.lineInput = none ∧ o.lineFile.isSome = true ∧ o.dimacs = none) ∨
    (o.lineInput = none ∧ o.lineFile = none ∧ o.dimacs.isSome = true)
  verbosity : [o.verbos, o.veryVerbos, o.quiet, o.quietNodes].count true ≤ 1

/-- The input is the file `f`, given with `-lf` or `-d`. -/
def FromFile (o : Opts) (ty : InputType) (f : InFile) : Prop :=
  (ty = .slf ∧ o.lineFile = some f) ∨ (ty = .dimacs ∧ o.dimacs = some f)

/-- The checks of the options that the help text announces. -/
def BadOptions (o : Opts) : Prop :=
  (o.main.args.gdbNoMem = true ∧ o.main.args.useGlobalDb = false) ∨
    ∃ x y, o.multiply = some (x, y) ∧ (x ≤ 1 ∨ y ≤ 1)

/-- Something on the terminal depends on the verdict. -/
def Shown.tells : Shown H → Prop
  | .report _ _ => True
  | .written _ => True
  | .verified _ => True
  | _ => False

/-- Every set of options of the readable input `F`: no task, no global table, well-formed clauses, one of them not a
tautology; the conditions of C24. -/
structure RunsOn [DecidableEq H] (hash : Str → H) (o : Opts) (env : EnvChoice) (ty : InputType) (f : InFile) (F : Cnf) : Prop where
  parsed : Parsed o
  file : FromFile o ty f
  threads : 0 ≤ o.threads
  plain : Local o.main.args
  noFact : o.main.args.factorize = false
  noMult : o.multiply = none
  fair : Fair o.mainArgs.args env
  read : ∃ root : SetObj H, readInput ty f.text = pure root ∧ ReadsAs root F ∧
    ∀ k, NoCollisions hash o.mainArgs.args { root with computedHash := some k }
  clauses : ∀ c ∈ F, c ≠ [] ∧ (0 : Int) ∉ c
  notTaut : ∃ c ∈ F, ¬ Tautology c

/-! ### the checks -/

theorem refusal_eq {o : Opts} (h : Parsed o) : refusal o = if o.threads < 0 then some 3
    else if o.main.args.gdbNoMem && !o.main.args.useGlobalDb then some 2
    else match o.multiply with
      | some (x, y) => if x ≤ 1 ∨ y ≤ 1 then some 2 else none
      | none => none := by
  unfold refusal
  rcases h.one with ⟨h1, h2, h3⟩ | ⟨h1, h2, h3⟩ | ⟨h1, h2, h3⟩
  · rw [h2, h3]
    cases hl : o.lineInput with
    | none => rw [hl] at h1; simp at h1
    | some l => cases l <;> cases o.multiply <;> simp
  · rw [h1, h3]
    cases hl : o.lineFile with
    | none => rw [hl] at h2; simp at h2
    | some l => cases o.multiply <;> simp
  · rw [h1, h2]
    cases hl : o.dimacs with
    | none => rw [hl] at h3; simp at h3
    | some l => cases o.multiply <;> simp

/-- **C90** The exit status: 3 exactly for a negative number of threads, 2 exactly for the other refused options; nothing is
solved or written then.  In every other run that ends the status is 0, whatever the verdict and even after an error. -/
theorem C90_status [DecidableEq H] (hash : Str → H) {o : Opts} (ho : Parsed o) (env : EnvChoice) (g : Gdb H) :
    (o.threads < 0 → program hash o env g = some { status := 3, shown := [.usage] }) ∧
    (0 ≤ o.threads → BadOptions o → program hash o env g = some { status := 2, shown := [.usage] }) ∧
    (0 ≤ o.threads → ¬ BadOptions o → ∀ p, program hash o env g = some p → p.status = 0 ∧ .usage ∉ p.shown) := by
  have hr := refusal_eq ho
  refine ⟨?_, ?_, ?_⟩
  · intro ht
    unfold program
    rw [hr, if_pos ht]
  · intro ht hb
    unfold program
    rw [hr, if_neg (by omega)]
    rcases hb with ⟨h1, h2⟩ | ⟨x, y, h1, h2⟩
    · rw [if_pos (by simp [h1, h2])]
    · by_cases hc : (o.main.args.gdbNoMem && !o.main.args.useGlobalDb) = true
      · rw [if_pos hc]
      · rw [if_neg hc, h1]
        simp only [if_pos h2]
  · intro ht hb p hp
    have hn : refusal o = none := by
      rw [hr, if_neg (by omega), if_neg]
      · cases hm : o.multiply with
        | none => rfl
        | some q =>
          obtain ⟨x, y⟩ := q
          simp only
          rw [if_neg]
          intro hxy
          exact hb (Or.inr ⟨x, y, hm, hxy⟩)
      · intro hc
        simp only [Bool.and_eq_true, Bool.not_eq_true'] at hc
        exact hb (Or.inl hc)
    unfold program at hp
    rw [hn] at hp
    simp only at hp
    cases hm : mainRun hash o.mainArgs env g (chooseInput o).1 (chooseInput o).2.1 with
    | none => rw [hm] at hp; simp at hp
    | some out =>
      rw [hm] at hp
      simp only [Option.some.injEq] at hp
      subst hp
      refine ⟨rfl, ?_⟩
      intro hmem
      simp only [console, List.mem_append] at hmem
      rcases hmem with (((hmem | hmem) | hmem) | hmem) | hmem
      all_goals (repeat' split at hmem)
      all_goals simp at hmem

/-! ### runs that solve -/

/-- A run of `Main` without tasks: no multiplication is refused, no message about a task. -/
theorem mainRun_exited [DecidableEq H] {hash : Str → H} {ma : MainArgs} {env : EnvChoice} {g : Gdb H} {ty : InputType}
    {text : Str} {out : MainOut H} (h : mainRun hash ma env g ty text = some out) (hm : ma.args.multiply = none)
    (hfa : ma.args.factorize = false) : out.exited = false ∧ out.task = [] := by
  unfold mainRun at h
  split at h
  · simp at h
  · next o hb =>
    simp only [Option.some.injEq] at h
    subst h
    have hb : mainBody hash ma env g ty text = pure o := hb
    unfold mainBody at hb
    obtain ⟨cnf, _, hb⟩ := M.bind_eq_pure.1 hb
    simp only [hfa, Bool.false_eq_true, if_false, hm] at hb
    unfold mainSolve at hb
    split at hb
    · obtain ⟨⟨k, cnf'⟩, _, hb⟩ := M.bind_eq_pure.1 hb
      obtain ⟨⟨rep, msgs⟩, hs, hb⟩ := M.bind_eq_pure.1 hb
      unfold solveTask at hs
      obtain ⟨rep', _, hs⟩ := M.bind_eq_pure.1 hs
      simp only [hfa, Bool.false_eq_true, if_false, hm, M.pure_bind] at hs
      have e := (M.pure_inj _ _).1 hs
      simp only [List.append_nil, Prod.mk.injEq] at e
      simp only at hb
      split at hb
      all_goals (rw [← (M.pure_inj _ _).1 hb]; exact ⟨rfl, e.2.symm⟩)
    · rw [← (M.pure_inj _ _).1 hb]
      exact ⟨rfl, rfl⟩
  · simp only [Option.some.injEq] at h
    subst h
    exact ⟨rfl, rfl⟩

theorem chooseInput_file {o : Opts} (ho : Parsed o) {ty : InputType} {f : InFile} (hf : FromFile o ty f) :
    chooseInput o = (ty, f.text, f.name) := by
  unfold chooseInput
  rcases hf with ⟨rfl, e⟩ | ⟨rfl, e⟩
  · rcases ho.one with ⟨h1, h2, h3⟩ | ⟨h1, h2, h3⟩ | ⟨h1, h2, h3⟩
    · rw [e] at h2; simp at h2
    · rw [h1, h3, e]
    · rw [e] at h2; simp at h2
  · rcases ho.one with ⟨h1, h2, h3⟩ | ⟨h1, h2, h3⟩ | ⟨h1, h2, h3⟩
    · rw [e] at h3; simp at h3
    · rw [e] at h3; simp at h3
    · rw [h1, h2, e]

/-- The program on a readable input. -/
theorem RunsOn.run [DecidableEq H] {hash : Str → H} {o : Opts} {env : EnvChoice} {ty : InputType} {f : InFile} {F : Cnf}
    (h : RunsOn hash o env ty f F) (g : Gdb H) :
    ∃ (out : MainOut H) (rep : Report H), mainRun hash o.mainArgs env g ty f.text = some out ∧ out.report = some rep ∧
      out.error = none ∧ out.exited = false ∧ out.task = [] ∧
      (rep.isSat = true ↔ Satisfiable F) ∧
      (rep.isSat = true → ∃ d, rep.solution = some d ∧ MakesTrue d (F.filter fun c => decide (¬ Tautology c))) ∧
      (o.main.verify = true → rep.isSat = true → out.verified = some true) ∧
      program hash o env g = some {
        status := 0, shown := console o f.name out,
        file := out.solutionFile.map fun c => (solutionName f.name o.main.args.mode, c) } := by
  obtain ⟨root, h1, h2, h3⟩ := h.read
  have hm : o.mainArgs.args.multiply = none := by show Option.map _ o.multiply = none; rw [h.noMult]; rfl
  have hl : Local o.mainArgs.args := ⟨h.plain.gdb, h.plain.nomem⟩
  obtain ⟨out, rep, e1, e2, e3, e4, e5, e6⟩ := C24_main_verdict_partial hash hl h.noFact hm h.fair g h1 h2 h.clauses
    h.notTaut h3
  refine ⟨out, rep, e1, e2, e3, (mainRun_exited e1 hm h.noFact).1, (mainRun_exited e1 hm h.noFact).2, e4, e5, e6, ?_⟩
  unfold program
  have hr : refusal o = none := by
    rw [refusal_eq h.parsed, if_neg (by have := h.threads; omega), h.plain.nomem, h.noMult]
    rfl
  rw [hr, chooseInput_file h.parsed h.file]
  simp only
  rw [e1]

/-- **C90** With `-v` or `-vv` a readable input's verdict is on the terminal and it is right. -/
theorem C90_verdict_shown [DecidableEq H] {hash : Str → H} {o : Opts} {env : EnvChoice} {ty : InputType} {f : InFile} {F : Cnf}
    (h : RunsOn hash o env ty f F) (g : Gdb H) (hv : o.verbos = true ∨ o.veryVerbos = true) :
    ∃ p rep, program hash o env g = some p ∧ Shown.report rep [] ∈ p.shown ∧ (rep.isSat = true ↔ Satisfiable F) ∧
      (rep.isSat = true → ∃ d, rep.solution = some d ∧ MakesTrue d (F.filter fun c => decide (¬ Tautology c))) ∧
      (o.main.verify = true → Satisfiable F → Shown.verified true ∈ p.shown ∧ Shown.verified false ∉ p.shown) := by
  obtain ⟨out, rep, e1, e2, e3, e4, ht, e5, e6, e7, e8⟩ := h.run g
  have hq : (o.quiet || o.quietNodes) = false := by
    have := h.parsed.verbosity
    cases h1 : o.verbos <;> cases h2 : o.veryVerbos <;> cases h3 : o.quiet <;> cases h4 : o.quietNodes <;>
      simp_all
  have hi : (logLevel o).showsInfo = true := by
    unfold logLevel
    rcases hv with hv | hv
    · rw [hv]; rfl
    · cases o.verbos <;> simp [hv, Level.showsInfo]
  refine ⟨_, rep, e8, ?_, e5, e6, ?_⟩
  · simp only [console, e2, hi, hq, ht]
    simp
  · intro hver hsat
    have := e7 hver (e5.2 hsat)
    simp only [console, e2, hi, hq, e3, e4, this]
    constructor
    · simp
    · simp only [List.mem_append, not_or]
      refine ⟨⟨⟨⟨⟨?_, ?_⟩, ?_⟩, ?_⟩, ?_⟩, ?_⟩ <;> (repeat' split) <;> simp

/-- **C90, refuted** Without `-v` and `-vv` nothing on the terminal depends on the verdict, for any input, options and
environment: neither the verdict nor the solution nor the name of the solution file nor the answer of `-verify` is shown
(`configs.py` 64 sets the level WARNING, and all of these are `logger.info`). -/
theorem C90_verdict_hidden [DecidableEq H] {hash : Str → H} {o : Opts} (hv : o.verbos = false) (hvv : o.veryVerbos = false)
    {env : EnvChoice} {g : Gdb H} {p : Outcome H} (h : program hash o env g = some p) : ∀ s ∈ p.shown, ¬ s.tells := by
  have hi : (logLevel o).showsInfo = false := by
    unfold logLevel
    rw [hv, hvv]
    cases (o.quiet || o.quietNodes) <;> rfl
  unfold program at h
  split at h
  · simp only [Option.some.injEq] at h
    subst h
    intro s hs
    simp only [List.mem_singleton] at hs
    subst hs
    exact id
  · simp only at h
    split at h
    · simp at h
    · next out _ =>
      simp only [Option.some.injEq] at h
      subst h
      intro s hs
      simp only [console, hi, List.mem_append] at hs
      rcases hs with (((hs | hs) | hs) | hs) | hs
      · cases hr : out.report with
        | none => rw [hr] at hs; simp at hs
        | some r =>
          rw [hr] at hs
          simp only [Bool.and_false, Bool.false_eq_true, if_false, List.append_nil] at hs
          split at hs
          · simp only [List.mem_singleton] at hs
            subst hs
            exact id
          · simp at hs
      · split at hs
        · simp only [List.mem_singleton] at hs
          subst hs
          exact id
        · simp at hs
      · cases hr : out.solutionFile <;> rw [hr] at hs <;> simp at hs
      · cases hr : out.verified <;> rw [hr] at hs <;> simp at hs
      · cases hr : out.error with
        | none => rw [hr] at hs; simp at hs
        | some e =>
          rw [hr] at hs
          simp only [List.mem_singleton] at hs
          subst hs
          exact id

/-- **C90, refuted** The run of a readable input without `-v`, `-vv` and `-qn`: nothing is shown and the status is 0.  So a
satisfiable and an unsatisfiable input look the same (take any two such runs), unless a solution file is asked for. -/
theorem C90_silent [DecidableEq H] {hash : Str → H} {o : Opts} {env : EnvChoice} {ty : InputType} {f : InFile} {F : Cnf}
    (h : RunsOn hash o env ty f F) (g : Gdb H) (hv : o.verbos = false) (hvv : o.veryVerbos = false) (hqn : o.quietNodes = false) :
    ∃ p, program hash o env g = some p ∧ p.status = 0 ∧ p.shown = [] := by
  obtain ⟨out, rep, e1, e2, e3, e4, ht, e5, e6, e7, e8⟩ := h.run g
  refine ⟨_, e8, rfl, ?_⟩
  have hi : (logLevel o).showsInfo = false := by
    unfold logLevel
    rw [hv, hvv]
    cases (o.quiet || o.quietNodes) <;> rfl
  simp only [console, e2, e3, e4, hi, hqn]
  cases out.solutionFile <;> cases out.verified <;> simp

/-- The report of `Main` without tasks is that of `solve_set` on what was read. -/
theorem mainRun_solveSet [DecidableEq H] {hash : Str → H} {ma : MainArgs} {env : EnvChoice} {g : Gdb H} {ty : InputType}
    {text : Str} {out : MainOut H} {root : SetObj H} (hread : readInput ty text = pure root)
    (h : mainRun hash ma env g ty text = some out) (hm : ma.args.multiply = none)
    (hfa : ma.args.factorize = false) {rep : Report H} (hrep : out.report = some rep) :
    ∃ k, solveSet hash ma.args env g { root with computedHash := some k } = pure rep := by
  unfold mainRun at h
  split at h
  · simp at h
  · next o hb =>
    simp only [Option.some.injEq] at h
    subst h
    have hb : mainBody hash ma env g ty text = pure o := hb
    unfold mainBody at hb
    rw [hread, M.pure_bind] at hb
    simp only [hfa, Bool.false_eq_true, if_false, hm] at hb
    unfold mainSolve at hb
    split at hb
    · obtain ⟨⟨k, cnf'⟩, hk, hb⟩ := M.bind_eq_pure.1 hb
      obtain ⟨⟨rep', msgs⟩, hs, hb⟩ := M.bind_eq_pure.1 hb
      have hc : cnf' = { root with computedHash := some k } := by
        unfold SetObj.getHash at hk
        split at hk
        · next k' _ hk' _ =>
          have e := (M.pure_inj _ _).1 hk
          simp only [Prod.mk.injEq] at e
          rw [← e.1, ← e.2, ← hk']
        · obtain ⟨b, _, hk⟩ := M.bind_eq_pure.1 hk
          have e := (M.pure_inj _ _).1 hk
          simp only [Prod.mk.injEq] at e
          rw [← e.1, ← e.2]
      unfold solveTask at hs
      obtain ⟨rep'', hs', hs⟩ := M.bind_eq_pure.1 hs
      simp only [hfa, Bool.false_eq_true, if_false, hm, M.pure_bind] at hs
      have e := (M.pure_inj _ _).1 hs
      simp only [List.append_nil, Prod.mk.injEq] at e
      have hr : o.report = some rep' := by
        simp only at hb
        split at hb
        all_goals (rw [← (M.pure_inj _ _).1 hb])
      rw [hrep] at hr
      simp only [Option.some.injEq] at hr
      refine ⟨k, ?_⟩
      rw [← hc, hs', hr, e.1]
    · rw [← (M.pure_inj _ _).1 hb] at hrep
      simp at hrep
  · simp only [Option.some.injEq] at h
    subst h
    simp at hrep

/-- **C90** With `-qn` a number is all that is shown.  It is the number of nodes of the run's graph (if the run is complete
and uses statistics, and `-thief` is not combined with several processes). -/
theorem C90_quiet_nodes [DecidableEq H] {hash : Str → H} {o : Opts} {env : EnvChoice} {ty : InputType} {f : InFile} {F : Cnf}
    (h : RunsOn hash o env ty f F) (g : Gdb H) (hqn : o.quietNodes = true) :
    ∃ (p : Outcome H) (rep : Report H), program hash o env g = some p ∧ p.status = 0 ∧ p.shown = [.uniques rep.uniques] ∧
      (rep.isSat = true ↔ Satisfiable F) ∧
      (o.main.args.noStats = false → o.main.args.exitUponSolving = false →
        (o.main.args.thief = false ∨ maxThreads env.cpu o.mainArgs.args = 0) →
        rep.uniques = rep.nodesChildren.length ∧ rep.nodesChildren.keys.Nodup) := by
  obtain ⟨out, rep, e1, e2, e3, e4, ht, e5, e6, e7, e8⟩ := h.run g
  refine ⟨_, rep, e8, rfl, ?_, e5, ?_⟩
  · have hv : o.verbos = false ∧ o.veryVerbos = false := by
      have := h.parsed.verbosity
      cases h1 : o.verbos <;> cases h2 : o.veryVerbos <;> cases h3 : o.quiet <;> simp_all
    have hi : (logLevel o).showsInfo = false := by
      unfold logLevel
      rw [hv.1, hv.2]
      cases (o.quiet || o.quietNodes) <;> rfl
    simp only [console, e2, e3, e4, hi, hqn]
    cases out.solutionFile <;> cases out.verified <;> simp
  · intro hst hex hor
    obtain ⟨root, h1, h2, h3⟩ := h.read
    have hm : o.mainArgs.args.multiply = none := by show Option.map _ o.multiply = none; rw [h.noMult]; rfl
    obtain ⟨k, hk⟩ := mainRun_solveSet h1 e1 hm h.noFact e2
    have hprop : Proper (raws root.clauses) :=
      forall₂_proper h2.clauses (fun c hc => h.clauses c (List.mem_filter.1 hc).1)
    have hne : raws root.clauses ≠ [] := by
      intro e
      have := h2.clauses
      rw [e, List.forall₂_nil_left_iff, List.filter_eq_nil_iff] at this
      obtain ⟨c, hc, hn⟩ := h.notTaut
      exact (this c hc) (by simpa using hn)
    have hval : root.value = none := by
      rw [h2.value, if_neg]
      rintro ⟨_, hall⟩
      obtain ⟨c, hc, hn⟩ := h.notTaut
      exact hn (hall c hc)
    have hin : Input (raws root.clauses) { root with computedHash := some k } :=
      ⟨SameClauses.refl _, hval, h2.fnm, h2.ev⟩
    have hl : Local o.mainArgs.args := ⟨h.plain.gdb, h.plain.nomem⟩
    exact C19_counts_agree hl hst h.fair.main hprop hne hin (h3 k) hk
      (fun hc => by have := hc.1; rw [show o.mainArgs.args.exitUponSolving = o.main.args.exitUponSolving from rfl, hex] at this; simp at this) hor

/-! ### the solution file -/

theorem mem_takeWhile {α : Type} {p : α → Bool} {x : α} : ∀ {l : List α}, x ∈ l.takeWhile p → p x = true
  | [], h => by simp at h
  | a :: l, h => by
    rw [List.takeWhile_cons] at h
    split at h
    · next ha =>
      rcases List.mem_cons.1 h with rfl | h
      · exact ha
      · exact mem_takeWhile h
    · simp at h

/-- `r` is the file name without its extension: `name` is `r` followed by nothing, or by a dot and an extension. -/
theorem pathRoot_spec (name : Str) : ∃ e, name = pathRoot name ++ e ∧ (e = [] ∨ ∃ x, e = '.' :: x ∧ '.' ∉ x ∧ '/' ∉ x) := by
  unfold pathRoot
  simp only
  have hall := List.takeWhile_append_dropWhile (p := fun c => c != '.' && c != '/') (l := name.reverse)
  have hd : name.reverse.drop (name.reverse.takeWhile fun c => c != '.' && c != '/').length =
      name.reverse.dropWhile fun c => c != '.' && c != '/' := by
    have := List.drop_left (l₁ := name.reverse.takeWhile fun c => c != '.' && c != '/')
      (l₂ := name.reverse.dropWhile fun c => c != '.' && c != '/')
    rw [hall] at this
    exact this
  rw [hd]
  split
  · next b hb =>
    split
    · exact ⟨[], by simp, Or.inl rfl⟩
    · refine ⟨'.' :: (name.reverse.takeWhile fun c => c != '.' && c != '/').reverse, ?_, Or.inr ⟨_, rfl, ?_, ?_⟩⟩
      · rw [hb] at hall
        have := congrArg List.reverse hall
        rw [List.reverse_reverse] at this
        conv_lhs => rw [← this]
        simp
      · intro hm
        rw [List.mem_reverse] at hm
        have := mem_takeWhile hm
        simp at this
      · intro hm
        rw [List.mem_reverse] at hm
        have := mem_takeWhile hm
        simp at this
  · exact ⟨[], by simp, Or.inl rfl⟩

/-- **C90** A solution file never replaces the input file, and the files of different modes are different. -/
theorem C90_solution_name (input : Str) (m m' : Mode) :
    solutionName input m ≠ input ∧ (solutionName input m = solutionName input m' → m = m') := by
  constructor
  · intro h
    obtain ⟨e, he, hx⟩ := pathRoot_spec input
    unfold solutionName at h
    rw [List.append_assoc] at h
    conv_rhs at h => rw [he]
    have := List.append_cancel_left h
    rcases hx with rfl | ⟨x, rfl, _⟩ <;> simp at this
  · intro h
    unfold solutionName at h
    rw [List.append_assoc, List.append_assoc] at h
    have := List.append_cancel_left h
    revert this
    cases m <;> cases m' <;> decide

/-- **C90** With `-s` exactly the satisfiable inputs get a file, named after the input and the mode, and it makes every
clause true that is not a tautology. -/
theorem C90_solution_file [DecidableEq H] {hash : Str → H} {o : Opts} {env : EnvChoice} {ty : InputType} {f : InFile} {F : Cnf}
    (h : RunsOn hash o env ty f F) (g : Gdb H) (hs : o.main.outputSolution = true) :
    ∃ p, program hash o env g = some p ∧
      (Satisfiable F → ∃ text, p.file = some (solutionName f.name o.main.args.mode, text) ∧
        ∀ c ∈ F, ¬ Tautology c → FileSatisfies text c) ∧
      (¬ Satisfiable F → p.file = none) := by
  obtain ⟨out, rep, e1, e2, e3, e4, ht, e5, e6, e7, e8⟩ := h.run g
  obtain ⟨root, h1, h2, h3⟩ := h.read
  have hm : o.mainArgs.args.multiply = none := by show Option.map _ o.multiply = none; rw [h.noMult]; rfl
  obtain ⟨out', k1, k2, k3⟩ := C46_solution_file_partial hash (ma := o.mainArgs) ⟨h.plain.gdb, h.plain.nomem⟩ h.noFact hm hs h.fair g
    h1 h2 h.clauses h.notTaut h3
  rw [e1] at k1
  simp only [Option.some.injEq] at k1
  subst k1
  refine ⟨_, e8, ?_, ?_⟩
  · intro hsat
    obtain ⟨file, j1, j2⟩ := k2 hsat
    exact ⟨file, by simp [j1], j2⟩
  · intro hu
    simp [k3 hu]

/-- **C90** (and C23) Whatever is given with `-l`, an error is all that is shown. -/
theorem C90_line_option [DecidableEq H] (hash : Str → H) {o : Opts} (ho : Parsed o) (hl : o.lineInput.isSome = true)
    (ht : 0 ≤ o.threads) (hb : ¬ BadOptions o) (env : EnvChoice) (g : Gdb H) :
    ∃ e, program hash o env g = some { status := 0, shown := [.error e] } := by
  obtain ⟨l, hl⟩ := Option.isSome_iff_exists.1 hl
  have hc : ∃ t n, chooseInput o = (.sl, t, n) := by
    unfold chooseInput
    rcases ho.one with ⟨h1, h2, h3⟩ | ⟨h1, h2, h3⟩ | ⟨h1, h2, h3⟩
    · rw [hl, h2, h3]
      cases l with
      | nil => exact ⟨_, _, rfl⟩
      | cons c cs => exact ⟨_, _, rfl⟩
    · rw [hl] at h1; simp at h1
    · rw [hl] at h1; simp at h1
  obtain ⟨t, n, hc⟩ := hc
  have hr : refusal o = none := by
    rw [refusal_eq ho, if_neg (by omega), if_neg]
    · cases hm : o.multiply with
      | none => rfl
      | some q =>
        obtain ⟨x, y⟩ := q
        simp only
        rw [if_neg]
        intro hxy
        exact hb (Or.inr ⟨x, y, hm, hxy⟩)
    · intro hc
      simp only [Bool.and_eq_true, Bool.not_eq_true'] at hc
      exact hb (Or.inl hc)
  have hrun : ∃ e, mainRun hash o.mainArgs env g .sl t = some { error := some e } := by
    have hread : ∃ e, readInput (H := H) .sl t = raise e := by
      unfold readInput
      split
      · exact ⟨_, rfl⟩
      · exact ⟨_, rfl⟩
    obtain ⟨e, he⟩ := hread
    refine ⟨e, ?_⟩
    unfold mainRun mainBody
    rw [he, M.raise_bind]
    rfl
  obtain ⟨e, he⟩ := hrun
  refine ⟨e, ?_⟩
  unfold program
  rw [hr]
  simp only [hc, he]
  rfl

theorem takeWhile_stop {p : Char → Bool} {a b : Str} {c : Char} (h : ∀ x ∈ a, p x = true) (hc : p c = false) :
    (a ++ c :: b).takeWhile p = a := by
  induction a with
  | nil => simp [hc]
  | cons x a ih =>
    rw [List.cons_append, List.takeWhile_cons, if_pos (h x (by simp)), ih fun y hy => h y (by simp [hy])]

theorem takeWhile_id {p : Char → Bool} {a : Str} (h : ∀ x ∈ a, p x = true) : a.takeWhile p = a := by
  induction a with
  | nil => rfl
  | cons x a ih => rw [List.takeWhile_cons, if_pos (h x (by simp)), ih fun y hy => h y (by simp [hy])]

/-- **C90** For the input `dir/base.ext` (where `base` is not only dots) the solution file is `dir/base_mode.sol`; for the
input `dir/base` without a dot in the last part it is `dir/base_mode.sol` too. -/
theorem C90_solution_name_eq {d b : Str} (hd : d = [] ∨ ∃ d', d = d' ++ ['/']) (hb : '/' ∉ b) (m : Mode) :
    (∀ e, (∃ c ∈ b, c ≠ '.') → '.' ∉ e → '/' ∉ e →
      solutionName (d ++ b ++ '.' :: e) m = d ++ b ++ '_' :: m.text ++ ".sol".toList) ∧
    ('.' ∉ b → solutionName (d ++ b) m = d ++ b ++ '_' :: m.text ++ ".sol".toList) := by
  have hall' : ∀ x ∈ b.reverse, (x != '/') = true := by
    intro x hx; rw [List.mem_reverse] at hx
    simp only [bne_iff_ne, ne_eq]; exact fun h => hb (h ▸ hx)
  constructor
  · rintro e ⟨x, hxb, hxd⟩ he1 he2
    have hr : (d ++ b ++ '.' :: e).reverse = e.reverse ++ '.' :: (b.reverse ++ d.reverse) := by simp [List.append_assoc]
    have hall : ∀ x ∈ e.reverse, (x != '.' && x != '/') = true := by
      intro x hx
      rw [List.mem_reverse] at hx
      simp only [Bool.and_eq_true, bne_iff_ne, ne_eq]
      exact ⟨fun h => he1 (h ▸ hx), fun h => he2 (h ▸ hx)⟩
    have ht : (d ++ b ++ '.' :: e).reverse.takeWhile (fun c => c != '.' && c != '/') = e.reverse := by
      rw [hr]; exact takeWhile_stop hall (by decide)
    have hdp : (d ++ b ++ '.' :: e).reverse.drop e.reverse.length = '.' :: (b.reverse ++ d.reverse) := by
      rw [hr]; exact List.drop_left
    have htw : (b.reverse ++ d.reverse).takeWhile (· != '/') = b.reverse := by
      rcases hd with rfl | ⟨d'', rfl⟩
      · rw [List.reverse_nil, List.append_nil]; exact takeWhile_id hall'
      · rw [List.reverse_append]; exact takeWhile_stop hall' (by decide)
    unfold solutionName pathRoot
    simp only
    rw [ht, hdp]
    simp only
    rw [htw, if_neg]
    · simp
    · intro ha
      rw [List.all_eq_true] at ha
      exact hxd (by simpa using ha x (List.mem_reverse.2 hxb))
  · intro hdot
    have hall : ∀ x ∈ b.reverse, (x != '.' && x != '/') = true := by
      intro x hx
      rw [List.mem_reverse] at hx
      simp only [Bool.and_eq_true, bne_iff_ne, ne_eq]
      exact ⟨fun h => hdot (h ▸ hx), fun h => hb (h ▸ hx)⟩
    have hroot : pathRoot (d ++ b) = d ++ b := by
      unfold pathRoot
      simp only
      rw [List.reverse_append]
      rcases hd with rfl | ⟨d', rfl⟩
      · rw [List.reverse_nil, List.append_nil, takeWhile_id hall, List.drop_length]
      · rw [List.reverse_append, List.reverse_singleton, List.singleton_append, takeWhile_stop hall (by decide), List.drop_left]
        rfl
    unfold solutionName
    rw [hroot]

/-- The hypotheses are met by every line file with non-empty clauses of at most three literals and injective digests, with
the default options. -/
theorem runsOn_line {F : Cnf} {text : Str} (hw : WritesCnf text F) (h1 : '\n' ∉ text) (h3 : ∀ c ∈ F, (dedup c).length ≤ 3)
    (hF : ∀ c ∈ F, c ≠ [] ∧ (0 : Int) ∉ c) (ht : ∃ c ∈ F, ¬ Tautology c) (name : Str) (verbos : Bool) :
    RunsOn (H := Str) id { lineFile := some { name := name, text := text }, verbos := verbos } {} .slf
      { name := name, text := text } F := by
  obtain ⟨root, h1, _, _, h4⟩ := C22_line_faithful (H := Str) (rest := []) hw h1 (fun c hc => (hF c hc).2) _ (Or.inl rfl)
  have hR := h4 (fun c hc => Or.inl (h3 c hc))
  have hval : root.value = none := by
    rw [hR.value, if_neg]
    rintro ⟨_, hall⟩
    obtain ⟨c, hc, hn⟩ := ht
    exact hn (hall c hc)
  have hp : Proper (raws root.clauses) := forall₂_proper hR.clauses (fun c hc => hF c (List.mem_filter.1 hc).1)
  have hne : raws root.clauses ≠ [] := by
    intro e
    have := hR.clauses
    rw [e, List.forall₂_nil_left_iff, List.filter_eq_nil_iff] at this
    obtain ⟨c, hc, hn⟩ := ht
    exact (this c hc) (by simpa using hn)
  refine ⟨⟨Or.inr (Or.inl ⟨rfl, rfl, rfl⟩), by cases verbos <;> simp⟩, Or.inl ⟨rfl, rfl⟩, by simp, ⟨rfl, rfl⟩, rfl, rfl,
    ⟨fun _ => rfl, fun _ _ => rfl, by simp [maxThreads, Opts.mainArgs]⟩, ⟨root, h1, hR, fun k => ?_⟩, hF, ht⟩
  exact noCollisions_of_injective (fun _ _ h => h) _ (F := raws root.clauses) ⟨SameClauses.refl _, hval, hR.fnm, hR.ev⟩ hp hne

/-- A satisfiable and an unsatisfiable file: the program answers both the same way, unless `-v` is given. -/
example : ∃ p q : Outcome Str,
    program (H := Str) id { lineFile := some { name := "a.txt".toList, text := "1|2".toList } } {} [] = some p ∧
    program (H := Str) id { lineFile := some { name := "a.txt".toList, text := "1&-1".toList } } {} [] = some q ∧ p.shown = q.shown := by
  have w1 : WritesCnf "1|2".toList [[1, 2]] :=
    ⟨["1|2".toList], .cons ⟨["1".toList, "2".toList], .cons ⟨[], [], by simp, by decide⟩
      (.cons ⟨[], [], by simp, by decide⟩ .nil), by simp, by decide⟩ .nil, by simp, by decide⟩
  have w2 : WritesCnf "1&-1".toList [[1], [-1]] :=
    ⟨["1".toList, "-1".toList], .cons ⟨["1".toList], .cons ⟨[], [], by simp, by decide⟩ .nil, by simp, by decide⟩
      (.cons ⟨["-1".toList], .cons ⟨[], [], by simp, by decide⟩ .nil, by simp, by decide⟩ .nil), by simp, by decide⟩
  obtain ⟨p, h1, _, h2⟩ := C90_silent (runsOn_line w1 (by decide) (by decide) (by decide) ⟨[1, 2], by simp, by decide⟩ "a.txt".toList false)
    [] rfl rfl rfl
  obtain ⟨q, h3, _, h4⟩ := C90_silent (runsOn_line w2 (by decide) (by decide) (by decide) ⟨[1], by simp, by decide⟩ "a.txt".toList false)
    [] rfl rfl rfl
  exact ⟨p, q, h1, h3, by rw [h2, h4]⟩

end NDP
