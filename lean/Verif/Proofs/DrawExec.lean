import Verif.Proofs.DrawRun
import Verif.Proofs.Exec
/- Bounded version of the drawing loop, to run it on concrete inputs inside the kernel. -/
namespace NDP
open SetObj
variable {H : Type} [DecidableEq H] (hash : Str → H) (a : Args) (im : Mode)

def expandDotF (n : Nat) (seen : List H) (ps : PS H) : M (PS H × List (Dot H)) := do
  let (cnf, q) ← ps.queue.pop
  let ps := { ps with queue := q }
  let (s1, s2, pulled, cnf) ← getChildren hash a seen ps.gdb cnf
  let ps := if pulled then { ps with foundInGdb := ps.foundInGdb + 1 } else ps
  let b1 ← s1.toStr
  let (ps, s1) ← processChildF hash a im n pulled cnf.id ps s1
  let d1 ← drawChild cnf.id b1 s1
  let b2 ← s2.toStr
  let (ps, s2) ← processChildF hash a im n pulled cnf.id ps s2
  let d2 ← drawChild cnf.id b2 s2
  let (h1, s1) ← s1.getHash hash false
  let (h2, s2) ← s2.getHash hash false
  let (status, g) ← saveParentChildren hash a seen ps.gdb cnf h1 h2
  let ps := { ps with gdb := g }
  let ps ← if status = .success then do
      let q ← enqueueUnique ps.queue s1
      let q ← enqueueUnique q s2
      pure { ps with queue := q }
    else pure ps
  pure (if s1.value ≠ none ∧ s2.value ≠ none then { ps with leaves := ps.leaves ++ [cnf.id] } else ps, d1 ++ d2)

theorem expandDotF_le (n : Nat) (seen : List H) (ps : PS H) :
    M.le (expandDotF hash a im n seen ps) (expandDot hash a im seen ps) := by
  unfold expandDotF expandDot
  apply M.le.bind (M.le.refl _)
  rintro ⟨cnf, q⟩
  apply M.le.bind (M.le.refl _)
  rintro ⟨s1, s2, pl, cnf⟩
  apply M.le.bind (M.le.refl _)
  intro b1
  apply M.le.bind (processChildF_le hash a im n _ _ _ _)
  rintro ⟨ps1, s1⟩
  apply M.le.bind (M.le.refl _)
  intro d1
  apply M.le.bind (M.le.refl _)
  intro b2
  exact M.le.bind (processChildF_le hash a im n _ _ _ _) fun _ => M.le.refl _

def mainStepDotF (n : Nat) (seen : List H) (maxT : Nat) (fails : Nat → Bool) (sched : List Bool)
    (st : MainSt H × List (Dot H)) : M (MainSt H × List (Dot H) ⊕ PS H × List (Dot H)) :=
  if keepGoing a st.1.ps then do
    let (ps, d) ← expandDotF hash a im n seen st.1.ps
    let dot := st.2 ++ d
    if st.1.gen && decide (0 < maxT) && decide (maxT = ps.queue.size) then do
      let (nodes, q) ← popMany maxT ps.queue
      let threads ← threadsF hash a im n seen ps.gdb fails 0 nodes
      let ps ← collect a sched { ps := { ps with queue := q }, threads := threads }
      pure (.inl ({ ps := ps, gen := false }, dot))
    else pure (.inl ({ st.1 with ps := ps }, dot))
  else pure (.inr (st.1.ps, st.2))

theorem mainStepDotF_pure {n : Nat} {seen : List H} {maxT : Nat} {fails : Nat → Bool} {sched : List Bool}
    {st : MainSt H × List (Dot H)} {r : MainSt H × List (Dot H) ⊕ PS H × List (Dot H)}
    (h : mainStepDotF hash a im n seen maxT fails sched st = pure r) :
    mainStepDot hash a im seen maxT fails sched st = pure r := by
  unfold mainStepDotF at h
  unfold mainStepDot
  split
  · next hk =>
    rw [if_pos hk] at h
    obtain ⟨⟨ps, d⟩, h1, h⟩ := M.bind_eq_pure.1 h
    rw [(expandDotF_le hash a im n seen st.1.ps).pure h1, M.pure_bind]
    simp only at h ⊢
    split
    · next hc =>
      rw [if_pos hc] at h
      obtain ⟨⟨nodes, q⟩, h2, h⟩ := M.bind_eq_pure.1 h
      obtain ⟨ts, h3, h⟩ := M.bind_eq_pure.1 h
      rw [h2, M.pure_bind]
      have := threadsF_eq hash a im h3
      simp only [Nat.zero_add] at this
      simp only [workerMsgDot_eq, this]
      exact h
    · next hc => rw [if_neg hc] at h; exact h
  · next hk => rw [if_neg hk] at h; exact h

def runMainDotF (n : Nat) (seen : List H) (g : Gdb H) (maxT : Nat) (fails : Nat → Bool) (sched : List Bool)
    (dot : List (Dot H)) (cnf : SetObj H) : M (PS H × List (Dot H)) := do
  let ps ← initPS hash a g 1 cnf
  pyWhileN (mainStepDotF hash a im n seen maxT fails sched) n ({ ps := ps, gen := decide (0 < maxT) }, dot)

theorem runMainDotF_pure {n : Nat} {seen : List H} {g : Gdb H} {maxT : Nat} {fails : Nat → Bool} {sched : List Bool}
    {dot : List (Dot H)} {cnf : SetObj H} {r : PS H × List (Dot H)}
    (h : runMainDotF hash a im n seen g maxT fails sched dot cnf = pure r) :
    runMainDot hash a im seen g maxT fails sched dot cnf = pure r := by
  unfold runMainDotF at h
  unfold runMainDot
  obtain ⟨p, h1, h⟩ := M.bind_eq_pure.1 h
  rw [h1, M.pure_bind]
  exact pyWhileN_pure (fun s r => mainStepDotF_pure hash a im) n _ _ h

end NDP
