import Verif.Props.Graph
import Verif.Proofs.Exec
import Verif.Proofs.GFresh
/-
  C39, C43: failing database connections.
-/
namespace NDP
open Spec SetObj
variable {H : Type} [DecidableEq H] (hash : Str → H) {a : Args}

/-! ### C39: a worker that cannot connect -/

/-- A thread that will never be removed from the list: its worker failed, died, or its message has been consumed. -/
def Stuck (t : Thread H) : Prop := t.msg = none ∨ t.msg = some .failed

theorem collect_stuck (he : a.exitUponSolving = false) : ∀ (sched : List Bool) (st : CollectSt H), (∃ t ∈ st.threads, Stuck t) →
    ∀ ps, collect a sched st ≠ pure ps := by
  intro sched
  induction sched with
  | nil =>
    rintro st ⟨t, ht, _⟩ ps h
    unfold collect at h
    split at h
    · next e => rw [List.length_eq_zero_iff] at e; rw [e] at ht; simp at ht
    · exact M.diverge_ne_pure _ h
  | cons r rs ih =>
    rintro st ⟨t, ht, hs⟩ ps h
    unfold collect at h
    obtain ⟨x, h1, h2⟩ := M.bind_eq_pure.1 h
    have hlen : st.threads.length ≠ 0 := by
      intro e; rw [List.length_eq_zero_iff] at e; rw [e] at ht; simp at ht
    have key : ∃ st', x = .inl st' ∧ ∃ t ∈ st'.threads, Stuck t := by
      unfold collectStep at h1
      rw [if_neg hlen] at h1
      simp only at h1
      have hi : st.i % st.threads.length < st.threads.length := Nat.mod_lt _ (Nat.pos_of_ne_zero hlen)
      rw [List.getElem?_eq_getElem hi] at h1
      simp only at h1
      generalize hu : st.threads[st.i % st.threads.length] = u at h1
      have hidx : st.threads[st.i % st.threads.length]? = some u := by rw [List.getElem?_eq_getElem hi, hu]
      have herase : u.msg ≠ none → u.msg ≠ some .failed → t ∈ st.threads.eraseIdx (st.i % st.threads.length) := by
        intro hn1 hn2
        obtain ⟨j, hj, rfl⟩ := List.mem_iff_getElem.1 ht
        rw [List.mem_eraseIdx_iff_getElem?]
        refine ⟨j, ?_, List.getElem?_eq_getElem hj⟩
        rintro rfl
        rw [hu] at hs
        rcases hs with hs | hs
        · exact hn1 hs
        · exact hn2 hs
      split at h1
      · next hm =>
        obtain ⟨q, _, h1⟩ := M.bind_eq_pure.1 h1
        refine ⟨_, ((M.pure_inj _ _).1 h1).symm, { u with msg := none }, ?_, Or.inl rfl⟩
        exact List.mem_iff_getElem.2 ⟨st.i % st.threads.length, by simpa using hi, by simp⟩
      · next s nc sol hm =>
        have hmem := herase (by rw [hm]; simp) (by rw [hm]; simp)
        split at h1
        · rw [he] at h1
          simp only [Bool.false_eq_true, if_false] at h1
          exact ⟨_, ((M.pure_inj _ _).1 h1).symm, t, hmem, hs⟩
        · exact ⟨_, ((M.pure_inj _ _).1 h1).symm, t, hmem, hs⟩
      · exact ⟨_, ((M.pure_inj _ _).1 h1).symm, t, ht, hs⟩
    obtain ⟨st', rfl, hst⟩ := key
    exact ih st' hst ps h2

theorem popMany_length : ∀ (n : Nat) (q : Queue H) {xs : List (SetObj H)} {q' : Queue H}, popMany n q = pure (xs, q') → xs.length = n := by
  intro n
  induction n with
  | zero => intro q xs q' h; have e := (M.pure_inj _ _).1 h; simp only [Prod.mk.injEq] at e; rw [← e.1]; rfl
  | succ n ih =>
    intro q xs q' h
    unfold popMany at h
    obtain ⟨⟨x, q1⟩, _, h⟩ := M.bind_eq_pure.1 h
    obtain ⟨⟨ys, q2⟩, h2, h⟩ := M.bind_eq_pure.1 h
    have e := (M.pure_inj _ _).1 h
    simp only [Prod.mk.injEq] at e
    rw [← e.1, List.length_cons, ih q1 h2]

/-- A pass that starts workers, one of which cannot connect, never ends. -/
theorem mainStep_stuck (hdb : (a.useRuntimeDb || a.useGlobalDb) = true) (he : a.exitUponSolving = false) {im : Mode} {seen : List H}
    {maxT : Nat} {fails : Nat → Bool} (hfail : ∃ i, i < maxT ∧ fails i = true) {sched : List Bool} {st : MainSt H} {r : MainSt H ⊕ PS H}
    (h : mainStep hash a im seen maxT fails sched st = pure r) : mainStep hash a im seen 0 fails sched st = pure r := by
  rw [mainStep_zero]
  unfold mainStep at h
  split at h
  · next hk =>
    rw [if_pos hk]
    obtain ⟨ps, h1, h⟩ := M.bind_eq_pure.1 h
    rw [h1, M.pure_bind]
    split at h
    · exfalso
      obtain ⟨⟨nodes, q⟩, h2, h⟩ := M.bind_eq_pure.1 h
      simp only at h
      obtain ⟨ps', h3, h⟩ := M.bind_eq_pure.1 h
      have hlen := popMany_length maxT _ h2
      obtain ⟨i, hi, hf⟩ := hfail
      refine collect_stuck he sched _ ⟨_, List.mem_iff_getElem.2 ⟨i, ?_, rfl⟩, ?_⟩ _ h3
      · simpa [hlen] using hi
      · right
        simp only [List.getElem_mapIdx, workerMsg, hdb, hf, Bool.and_self, if_true]
    · exact h
  · next hk => rw [if_neg hk]; exact h

theorem runMain_stuck (hdb : (a.useRuntimeDb || a.useGlobalDb) = true) (he : a.exitUponSolving = false) {im : Mode} {seen : List H}
    {g : Gdb H} {maxT : Nat} {fails : Nat → Bool} (hfail : ∃ i, i < maxT ∧ fails i = true) {sched : List Bool} {s : SetObj H} {ps : PS H}
    (h : runMain hash a im seen g maxT fails sched s = pure ps) : runMain hash a im seen g 0 fails sched s = pure ps := by
  have flag : ∀ (st : MainSt H) (b : Bool), pyWhile (mainStep hash a im seen 0 fails sched) st = pure ps →
      pyWhile (mainStep hash a im seen 0 fails sched) { st with gen := b } = pure ps := by
    intro st b h
    have := pyWhile_partial (step := mainStep hash a im seen 0 fails sched)
      (fun s => pyWhile (mainStep hash a im seen 0 fails sched) { st with gen := b } =
        pyWhile (mainStep hash a im seen 0 fails sched) { s with gen := b })
      (fun r => pyWhile (mainStep hash a im seen 0 fails sched) { st with gen := b } = pure r) ?_ ?_ st ps rfl h
    · exact this
    · intro s s' hs h1
      rw [hs]
      rw [mainStep_zero] at h1
      split at h1
      · next hk =>
        obtain ⟨p, h2, h1⟩ := M.bind_eq_pure.1 h1
        have e : { s with ps := p } = s' := by simpa using (M.pure_inj _ _).1 h1
        apply pyWhile_inl
        rw [mainStep_zero, if_pos (by exact hk)]
        show expand hash a im seen s.ps >>= _ = _
        rw [h2, M.pure_bind, ← e]
      · have := (M.pure_inj _ _).1 h1; simp at this
    · intro s r hs h1
      rw [hs]
      rw [mainStep_zero] at h1
      split at h1
      · obtain ⟨p, _, h1⟩ := M.bind_eq_pure.1 h1
        have := (M.pure_inj _ _).1 h1; simp at this
      · next hk =>
        have e : s.ps = r := by simpa using (M.pure_inj _ _).1 h1
        apply pyWhile_inr
        rw [mainStep_zero, if_neg (by exact hk)]
        show pure (Sum.inr s.ps) = _
        rw [e]
  unfold runMain at h ⊢
  obtain ⟨ps0, h0, h⟩ := M.bind_eq_pure.1 h
  rw [h0, M.pure_bind]
  apply flag { ps := ps0, gen := decide (0 < maxT) }
  exact pyWhile_partial (step := mainStep hash a im seen maxT fails sched)
    (fun s => pyWhile (mainStep hash a im seen 0 fails sched) { ps := ps0, gen := decide (0 < maxT) } =
      pyWhile (mainStep hash a im seen 0 fails sched) s)
    (fun r => pyWhile (mainStep hash a im seen 0 fails sched) { ps := ps0, gen := decide (0 < maxT) } = pure r)
    (fun s s' hs h1 => by rw [hs]; exact pyWhile_inl (mainStep_stuck hash hdb he hfail h1))
    (fun s r hs h1 => by rw [hs]; exact pyWhile_inr (mainStep_stuck hash hdb he hfail h1))
    _ ps rfl h

theorem runMain_threads (n : Nat) {im : Mode} {seen : List H} {g : Gdb H} {fails : Nat → Bool} {sched : List Bool} {s : SetObj H} :
    runMain hash { a with threads := n } im seen g 0 fails sched s = runMain hash a im seen g 0 fails sched s := by
  have h1 : initPS hash { a with threads := n } g 1 s = initPS hash a g 1 s := rfl
  have hp : ∀ (pl : Bool) (pid : Option H) (ps : PS H) (ch : SetObj H),
    processChild hash { a with threads := n } im pl pid ps ch = processChild hash a im pl pid ps ch := fun _ _ _ _ => rfl
  have h2 : ∀ ps, expand hash { a with threads := n } im seen ps = expand hash a im seen ps := by
    intro ps
    unfold expand
    simp only [hp]
    rfl
  have h3 : mainStep hash { a with threads := n } im seen 0 fails sched = mainStep hash a im seen 0 fails sched := by
    funext st
    rw [mainStep_zero, mainStep_zero, h2]
    rfl
  unfold runMain
  rw [h1, h3]

/-- **C39 is false.** Let some worker be unable to connect (no `-e`).  If the run ends at all, then no worker was started:
it ends exactly as the run with one process.  So whenever workers are started, the run never ends, for every order in
which the other workers finish. -/
theorem C39_refuted (hdb : (a.useRuntimeDb || a.useGlobalDb) = true) (he : a.exitUponSolving = false) {env : EnvChoice}
    (hfail : ∃ i, i < maxThreads env.cpu a ∧ env.fails i = true) {g : Gdb H} {root : SetObj H} {rep : Report H}
    (h : solveSet hash a env g root = pure rep) : solveSet hash { a with threads := 1 } env g root = pure rep := by
  have h1 : maxThreads env.cpu { a with threads := 1 } = 0 := by simp [maxThreads]
  unfold solveSet at h ⊢
  obtain ⟨x, hx, h⟩ := M.bind_eq_pure.1 h
  rw [hx, M.pure_bind]
  obtain ⟨⟨s, k⟩, hs, h⟩ := M.bind_eq_pure.1 h
  have hs' : prepareRoot hash { a with threads := 1 } root = pure (s, k) := hs
  rw [hs', M.pure_bind]
  simp only [h1] at h ⊢
  generalize hc : (!(if a.gdbNoMem = true then g.isSolved k else
    decide (k ∈ if (a.useGlobalDb && !a.gdbNoMem) = true then g.loadSolved s.clauses.length else []))) = c at h ⊢
  cases c with
  | false => exact h
  | true =>
    simp only [if_true, hdb, Bool.true_and] at h ⊢
    cases hm : env.mainFails with
    | true => rw [hm] at h; exact h
    | false =>
      rw [hm] at h
      simp only [Bool.false_eq_true, if_false] at h ⊢
      obtain ⟨ps, hps, h⟩ := M.bind_eq_pure.1 h
      have := runMain_stuck hash hdb he hfail hps
      exact M.bind_eq_pure.2 ⟨ps, (runMain_threads hash 1).trans this, h⟩

/-- When the first pass fills the queue up to the number of workers, the run never ends. -/
theorem C39_hangs (hdb : (a.useRuntimeDb || a.useGlobalDb) = true) (he : a.exitUponSolving = false) {im : Mode} {seen : List H}
    {g : Gdb H} {maxT : Nat} (hpos : 0 < maxT) {fails : Nat → Bool} (hfail : ∃ i, i < maxT ∧ fails i = true) {sched : List Bool} {s : SetObj H}
    {ps0 ps1 : PS H} (h0 : initPS hash a g 1 s = pure ps0) (hk : keepGoing a ps0 = true)
    (h1 : expand hash a im seen ps0 = pure ps1) (hsz : ps1.queue.size = maxT) (ps : PS H) :
    runMain hash a im seen g maxT fails sched s ≠ pure ps := by
  intro h
  unfold runMain at h
  rw [h0, M.pure_bind, pyWhile_eq] at h
  obtain ⟨r, h2, _⟩ := M.bind_eq_pure.1 h
  unfold mainStep at h2
  simp only [hk, if_true, h1, M.pure_bind, hsz, hpos, decide_true, Bool.and_self] at h2
  obtain ⟨⟨nodes, q⟩, h3, h2⟩ := M.bind_eq_pure.1 h2
  simp only at h2
  obtain ⟨ps', h4, h2⟩ := M.bind_eq_pure.1 h2
  have hlen := popMany_length maxT _ h3
  obtain ⟨i, hi, hf⟩ := hfail
  refine collect_stuck he sched _ ⟨_, List.mem_iff_getElem.2 ⟨i, ?_, rfl⟩, ?_⟩ _ h4
  · simpa [hlen] using hi
  · right
    simp only [List.getElem_mapIdx, workerMsg, hdb, hf, Bool.and_self, if_true]

def exFail : Cnf := [[1, 2, 3], [-1, 4, 5], [2, -4]]

def exFailArgs : Args := { mode := .flo, useRuntimeDb := true, threads := 2 }

def exFailRun : M (SetObj Str × PS Str × PS Str) := do
  let (s, _) ← prepareRootF (fun s => s) exFailArgs 50 (mkSet exFail)
  let ps0 ← initPS (fun s => s) exFailArgs [] 1 s
  let ps1 ← expandF (fun s => s) exFailArgs .flo 50 [] ps0
  pure (s, ps0, ps1)

set_option maxRecDepth 100000 in
theorem exFailRun_ok : (match exFailRun with | some (.ok (_, ps0, ps1)) => keepGoing exFailArgs ps0 && ps1.queue.size == 2 | _ => false) = true := by
  decide

/-- Non-vacuity: with `-t 2` and a runtime DB, the run on `exFail` whose first worker cannot connect never ends, whatever
the schedule. -/
example (sched : List Bool) (rep : Report Str) :
    solveSet (fun s : Str => s) exFailArgs { fails := fun i => i == 0, sched := sched } [] (mkSet exFail) ≠ pure rep := by
  intro h
  have hok := exFailRun_ok
  rcases M.cases exFailRun with e | ⟨er, e⟩ | ⟨⟨s, ps0, ps1⟩, e⟩
  · rw [e] at hok; exact absurd hok (by decide)
  · rw [e] at hok; exact absurd hok (by intro h; cases h)
  · rw [e] at hok
    have hok : (keepGoing exFailArgs ps0 && ps1.queue.size == 2) = true := hok
    simp only [Bool.and_eq_true, beq_iff_eq] at hok
    unfold exFailRun at e
    obtain ⟨⟨s', k'⟩, h1, e⟩ := M.bind_eq_pure.1 e
    obtain ⟨ps0', h2, e⟩ := M.bind_eq_pure.1 e
    obtain ⟨ps1', h3, e⟩ := M.bind_eq_pure.1 e
    have e := (M.pure_inj _ _).1 e
    cases e
    have h1' := (prepareRootF_le (fun s : Str => s) exFailArgs 50 (mkSet exFail)).pure h1
    have h3' := (expandF_le (fun s : Str => s) exFailArgs .flo 50 [] ps0).pure h3
    unfold solveSet at h
    obtain ⟨_, _, h⟩ := M.bind_eq_pure.1 h
    rw [h1', M.pure_bind] at h
    simp only [exFailArgs, Bool.false_and, Bool.false_eq_true, if_false, List.not_mem_nil, decide_false, Bool.not_false, if_true,
      Bool.true_or, Bool.and_false] at h
    obtain ⟨ps, h4, _⟩ := M.bind_eq_pure.1 h
    exact C39_hangs (fun s : Str => s) (a := exFailArgs) rfl rfl (maxT := 2) (by omega) ⟨0, by omega, rfl⟩ h2 hok.1 h3' hok.2 ps h4

/-! ### C43: the main process cannot connect -/

/-- **C43 is false.** When the main process cannot open its connection, the error is only logged: for *every* formula,
satisfiable or not, the run ends normally and reports "Not satisfiable". -/
theorem C43_refuted {F : Cnf} (hF : Proper F) (hne : F ≠ []) {root : SetObj H} (h : Input F root) (hr : a.useRuntimeDb = true)
    (hg : a.useGlobalDb = false) (hn : a.gdbNoMem = false) {env : EnvChoice} (hf : env.mainFails = true) (g : Gdb H) :
    ∃ rep, solveSet hash a env g root = pure rep ∧ rep.isSat = false ∧ rep.solution = none ∧ rep.nodesChildren = [] := by
  have hl := h.loaded hF hne
  obtain ⟨s, hs, _⟩ := prepareRoot_ok hash a hF hl
  have ht : root.toStr = pure (bodyStr root.clauses) := toStr_ok hl.value hl.ne
  unfold solveSet
  simp only [ht, hs, M.pure_bind, hg, hn, hr, hf, Bool.false_and, Bool.false_eq_true, if_false, List.not_mem_nil, decide_false,
    Bool.not_false, if_true, Bool.or_false, Bool.and_self]
  split
  · exact ⟨_, rfl, rfl, rfl, rfl⟩
  · exact ⟨_, rfl, rfl, rfl, rfl⟩

/-- Non-vacuity: a satisfiable formula. -/
example : ∃ rep, solveSet (fun s : Str => s) exFailArgs { mainFails := true } [] (mkSet exFail) = pure rep ∧ rep.isSat = false ∧
    Satisfiable exFail := by
  have hF : Proper exFail := by unfold exFail Proper; decide
  obtain ⟨rep, h1, h2, _⟩ := C43_refuted (fun s : Str => s) (a := exFailArgs) hF (by simp [exFail])
    (input_mkSet (H := Str) hF (by simp [exFail])) rfl rfl rfl (env := { mainFails := true }) rfl []
  refine ⟨rep, h1, h2, ⟨fun _ => true, ?_⟩⟩
  unfold exFail Sat
  decide

end NDP
