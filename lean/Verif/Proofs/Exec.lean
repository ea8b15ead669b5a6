import Verif.Lib.M
import Verif.Model.Solver
/- Bounded versions of the functions with loops, to run the model on concrete inputs inside the kernel: when a bounded
version answers (value or exception), so does the model, with the same answer. -/
namespace NDP
open SetObj
variable {H : Type} [DecidableEq H] (hash : Str → H) (a : Args) (im : Mode)

/-- `m` answers only what `m'` answers. -/
def M.le {α : Type} (m m' : M α) : Prop := ∀ x : Except PyErr α, m = some x → m' = some x

theorem M.le.refl {α : Type} (m : M α) : M.le m m := fun _ h => h

theorem M.le.bind {α β : Type} {m m' : M α} {f f' : α → M β} (h : M.le m m') (hf : ∀ x, M.le (f x) (f' x)) :
    M.le (m >>= f) (m' >>= f') := by
  intro x hx
  rcases M.cases m with e | ⟨er, e⟩ | ⟨v, e⟩
  · rw [e] at hx; cases hx
  · have := h (.error er) e
    rw [e] at hx
    have e' : m' = raise er := this
    rw [e']; exact hx
  · have := h (.ok v) e
    have e' : m' = pure v := this
    rw [e] at hx
    rw [e']
    exact hf v x hx

theorem M.le.while {S R : Type} {step step' : S → M (S ⊕ R)} (h : ∀ s, M.le (step s) (step' s)) :
    ∀ (n : Nat) (s : S), M.le (pyWhileN step n s) (pyWhile step' s) := by
  intro n
  induction n with
  | zero => intro s x hx; cases hx
  | succ n ih =>
    intro s
    rw [pyWhile_eq, pyWhileN]
    apply M.le.bind (h s)
    intro r
    cases r with
    | inl s' => exact ih s'
    | inr r => exact M.le.refl _

theorem M.le.pure {α : Type} {m m' : M α} (h : M.le m m') {v : α} (hv : m = pure v) : m' = pure v := h (.ok v) hv

def toLoF (n : Nat) (mode : Mode) (sortBySize thief : Bool) (s : SetObj H) : M (SetObj H) := do
  let s := if thief then s.sortByLenIdx else s
  let s := if mode = .flop ∨ sortBySize then s.sortByLength else s
  let s ← s.renameVars
  pyWhileN (loStep mode) n s

theorem toLoF_le (n : Nat) (mode : Mode) (z th : Bool) (s : SetObj H) : M.le (toLoF n mode z th s) (s.toLo mode z th) := by
  unfold toLoF toLo
  apply M.le.bind (M.le.refl _)
  intro s
  exact M.le.while (fun _ => M.le.refl _) n s

def processChildF (n : Nat) (pulled : Bool) (parentId : Option H) (ps : PS H) (child : SetObj H) : M (PS H × SetObj H) := do
  let _ ← child.toStr
  let (ps, child) ←
    match child.value with
    | some v =>
      let child := { child with status := some Status.evaluated }
      let ps := if v = true ∧ ps.solution = none
                then { ps with solution := some (sortItems child.evaluatedVars) } else ps
      pure (ps, child)
    | none => do
      let child ← if !pulled then do
          let c ← toLoF n im a.sortBySize a.thief child
          let (_, c) ← c.getHash hash true
          pure c
        else pure child
      let (h, child) ← child.getHash hash false
      let child := { child with id := some h }
      let st := if (ps.nodesChildren.get? h).isSome then Status.redundant else Status.unique
      pure (ps, { child with status := some st })
  let _ ← child.toStr
  let (_, child) ← child.getHash hash false
  match child.status, child.id with
  | some .unique, some cid => do
    let nc := ps.nodesChildren.set cid []
    let nc ← appendChild nc parentId cid
    pure ({ ps with uniques := ps.uniques + 1, nodesChildren := nc }, child)
  | some .redundant, some cid => do
    let nc ← appendChild ps.nodesChildren parentId cid
    pure ({ ps with redundantHits := ps.redundantHits + 1,
                    redundantIds := if cid ∈ ps.redundantIds then ps.redundantIds else ps.redundantIds ++ [cid],
                    nodesChildren := nc }, child)
  | _, _ =>
    pure ({ ps with isSat := ps.isSat || (child.value == some true) }, child)

theorem processChildF_le (n : Nat) (pl : Bool) (pid : Option H) (ps : PS H) (ch : SetObj H) :
    M.le (processChildF hash a im n pl pid ps ch) (processChild hash a im pl pid ps ch) := by
  unfold processChildF processChild
  apply M.le.bind (M.le.refl _)
  intro _
  simp only
  cases ch.value with
  | some v => exact M.le.refl _
  | none =>
    cases pl with
    | true => exact M.le.refl _
    | false =>
      exact M.le.bind (toLoF_le n im a.sortBySize a.thief ch) fun _ => M.le.refl _

def expandF (n : Nat) (seen : List H) (ps : PS H) : M (PS H) := do
  let (cnf, q) ← ps.queue.pop
  let ps := { ps with queue := q }
  let (s1, s2, pulled, cnf) ← getChildren hash a seen ps.gdb cnf
  let ps := if pulled then { ps with foundInGdb := ps.foundInGdb + 1 } else ps
  let (ps, s1) ← processChildF hash a im n pulled cnf.id ps s1
  let (ps, s2) ← processChildF hash a im n pulled cnf.id ps s2
  let (h1, s1) ← s1.getHash hash false
  let (h2, s2) ← s2.getHash hash false
  let (status, g) ← saveParentChildren hash a seen ps.gdb cnf h1 h2
  let ps := { ps with gdb := g }
  let ps ← if status = .success then do
      let q ← enqueueUnique ps.queue s1
      let q ← enqueueUnique q s2
      pure { ps with queue := q }
    else pure ps
  pure (if s1.value ≠ none ∧ s2.value ≠ none then { ps with leaves := ps.leaves ++ [cnf.id] } else ps)

theorem expandF_le (n : Nat) (seen : List H) (ps : PS H) : M.le (expandF hash a im n seen ps) (expand hash a im seen ps) := by
  unfold expandF expand
  apply M.le.bind (M.le.refl _)
  rintro ⟨cnf, q⟩
  apply M.le.bind (M.le.refl _)
  rintro ⟨s1, s2, pl, cnf⟩
  apply M.le.bind (processChildF_le hash a im n _ _ _ _)
  rintro ⟨ps1, s1⟩
  exact M.le.bind (processChildF_le hash a im n _ _ _ _) fun _ => M.le.refl _

def runWorkerF (n : Nat) (seen : List H) (g : Gdb H) (uniques : Nat) (cnf : SetObj H) : M (PS H) := do
  let ps ← initPS hash a g uniques cnf
  pyWhileN (fun ps => if keepGoing a ps then do
      let ps ← expandF hash a im n seen ps
      pure (.inl ps)
    else pure (.inr ps)) n ps

theorem runWorkerF_le (n : Nat) (seen : List H) (g : Gdb H) (u : Nat) (cnf : SetObj H) :
    M.le (runWorkerF hash a im n seen g u cnf) (runWorker hash a im seen g u cnf) := by
  unfold runWorkerF runWorker
  apply M.le.bind (M.le.refl _)
  intro ps
  apply M.le.while
  intro ps
  unfold workerStep
  split
  · exact M.le.bind (expandF_le hash a im n seen ps) fun _ => M.le.refl _
  · exact M.le.refl _

def workerMsgF (n : Nat) (seen : List H) (g : Gdb H) (fails : Bool) (node : SetObj H) : M (Option (WorkerMsg H)) :=
  if (a.useRuntimeDb || a.useGlobalDb) && fails then pure (some .failed)
  else match runWorkerF hash a im n seen g 0 node with
    | some (.ok ps) => pure (some (.done ps.isSat ps.nodesChildren ps.solution))
    | some (.error _) => pure none
    | none => diverge

theorem workerMsgF_eq {n : Nat} {seen : List H} {g : Gdb H} {fails : Bool} {node : SetObj H} {m : Option (WorkerMsg H)}
    (h : workerMsgF hash a im n seen g fails node = pure m) : workerMsg hash a im seen g fails node = m := by
  unfold workerMsgF at h
  unfold workerMsg
  split
  · next hc => rw [if_pos hc] at h; exact (M.pure_inj _ _).1 h
  · next hc =>
    rw [if_neg hc] at h
    have := runWorkerF_le hash a im n seen g 0 node
    cases hr : runWorkerF hash a im n seen g 0 node with
    | none => rw [hr] at h; cases h
    | some x =>
      rw [hr] at h
      rw [this x hr]
      cases x with
      | error e => exact (M.pure_inj _ _).1 h
      | ok ps => exact (M.pure_inj _ _).1 h

/-- The threads, with the messages they will deliver. -/
def threadsF (n : Nat) (seen : List H) (g : Gdb H) (fails : Nat → Bool) : Nat → List (SetObj H) → M (List (Thread H))
  | _, [] => pure []
  | i, x :: xs => do
    let m ← workerMsgF hash a im n seen g (fails i) x
    let ts ← threadsF n seen g fails (i + 1) xs
    pure ({ node := x, msg := m } :: ts)

theorem threadsF_eq {n : Nat} {seen : List H} {g : Gdb H} {fails : Nat → Bool} : ∀ {xs : List (SetObj H)} {i : Nat} {ts : List (Thread H)},
    threadsF hash a im n seen g fails i xs = pure ts →
    xs.mapIdx (fun j x => ({ node := x, msg := workerMsg hash a im seen g (fails (i + j)) x } : Thread H)) = ts := by
  intro xs
  induction xs with
  | nil => intro i ts h; exact (M.pure_inj _ _).1 h
  | cons x xs ih =>
    intro i ts h
    unfold threadsF at h
    obtain ⟨m, h1, h⟩ := M.bind_eq_pure.1 h
    obtain ⟨ts', h2, h⟩ := M.bind_eq_pure.1 h
    rw [← (M.pure_inj _ _).1 h, List.mapIdx_cons, ← ih h2]
    congr 1
    · rw [← workerMsgF_eq hash a im h1]; rfl
    · congr 1; funext j x
      rw [show i + (j + 1) = i + 1 + j by omega]

def mainStepF (n : Nat) (seen : List H) (maxT : Nat) (fails : Nat → Bool) (sched : List Bool) (st : MainSt H) : M (MainSt H ⊕ PS H) :=
  if keepGoing a st.ps then do
    let ps ← expandF hash a im n seen st.ps
    if st.gen && decide (0 < maxT) && decide (maxT = ps.queue.size) then do
      let (nodes, q) ← popMany maxT ps.queue
      let threads ← threadsF hash a im n seen ps.gdb fails 0 nodes
      let ps ← collect a sched { ps := { ps with queue := q }, threads := threads }
      pure (.inl { ps := ps, gen := false })
    else pure (.inl { st with ps := ps })
  else pure (.inr st.ps)

/-- Only normal answers carry over for the main process. -/
theorem mainStepF_pure {n : Nat} {seen : List H} {maxT : Nat} {fails : Nat → Bool} {sched : List Bool} {st : MainSt H}
    {r : MainSt H ⊕ PS H} (h : mainStepF hash a im n seen maxT fails sched st = pure r) :
    mainStep hash a im seen maxT fails sched st = pure r := by
  unfold mainStepF at h
  unfold mainStep
  split
  · next hk =>
    rw [if_pos hk] at h
    obtain ⟨ps, h1, h⟩ := M.bind_eq_pure.1 h
    rw [(expandF_le hash a im n seen st.ps).pure h1, M.pure_bind]
    split
    · next hc =>
      rw [if_pos hc] at h
      obtain ⟨⟨nodes, q⟩, h2, h⟩ := M.bind_eq_pure.1 h
      obtain ⟨ts, h3, h⟩ := M.bind_eq_pure.1 h
      rw [h2, M.pure_bind]
      have := threadsF_eq hash a im h3
      simp only [Nat.zero_add] at this
      simp only [this]
      exact h
    · next hc => rw [if_neg hc] at h; exact h
  · next hk => rw [if_neg hk] at h; exact h

theorem pyWhileN_pure {S R : Type} {step step' : S → M (S ⊕ R)} (h : ∀ s r, step s = pure r → step' s = pure r) :
    ∀ (n : Nat) (s : S) (r : R), pyWhileN step n s = pure r → pyWhile step' s = pure r := by
  intro n
  induction n with
  | zero => intro s r hr; cases hr
  | succ n ih =>
    intro s r hr
    rw [pyWhileN] at hr
    obtain ⟨x, h1, hr⟩ := M.bind_eq_pure.1 hr
    rw [pyWhile_eq, h s x h1, M.pure_bind]
    cases x with
    | inl s' => exact ih s' r hr
    | inr r' => exact hr

def runMainF (n : Nat) (seen : List H) (g : Gdb H) (maxT : Nat) (fails : Nat → Bool) (sched : List Bool) (cnf : SetObj H) : M (PS H) := do
  let ps ← initPS hash a g 1 cnf
  pyWhileN (mainStepF hash a im n seen maxT fails sched) n { ps := ps, gen := decide (0 < maxT) }

theorem runMainF_pure {n : Nat} {seen : List H} {g : Gdb H} {maxT : Nat} {fails : Nat → Bool} {sched : List Bool} {cnf : SetObj H}
    {ps : PS H} (h : runMainF hash a im n seen g maxT fails sched cnf = pure ps) :
    runMain hash a im seen g maxT fails sched cnf = pure ps := by
  unfold runMainF at h
  unfold runMain
  obtain ⟨p, h1, h⟩ := M.bind_eq_pure.1 h
  rw [h1, M.pure_bind]
  exact pyWhileN_pure (fun s r hr => mainStepF_pure hash a im hr) n _ _ h

def prepareRootF (n : Nat) (root : SetObj H) : M (SetObj H × H) := do
  let vars := root.getVariables
  let root := { root with originalValues := vars.map fun v => (v, v) }
  let root ← toLoF n a.mode a.sortBySize a.thief root
  let (h, root) ← root.getHash hash true
  pure ({ root with id := some h }, h)

theorem prepareRootF_le (n : Nat) (root : SetObj H) : M.le (prepareRootF hash a n root) (prepareRoot hash a root) := by
  unfold prepareRootF prepareRoot
  exact M.le.bind (toLoF_le n _ _ _ _) fun _ => M.le.refl _

end NDP
