import Verif.Proofs.Exec
import Verif.Proofs.SharedInv
/- Bounded, executable version of the shared system, to run concrete interleavings inside the kernel. -/
namespace NDP
open SetObj
variable {H : Type} [DecidableEq H] (hash : Str → H) (a : Args) (im : Mode)

def expandAtF (n : Nat) (seen : List H) (gr gq gw : Gdb H) (ps : PS H) : M (PS H) := do
  let (cnf, q) ← ps.queue.pop
  let ps := { ps with queue := q }
  let (s1, s2, pulled, cnf) ← getChildren hash a seen gr cnf
  let ps := if pulled then { ps with foundInGdb := ps.foundInGdb + 1 } else ps
  let (ps, s1) ← processChildF hash a im n pulled cnf.id ps s1
  let (ps, s2) ← processChildF hash a im n pulled cnf.id ps s2
  let (h1, s1) ← s1.getHash hash false
  let (h2, s2) ← s2.getHash hash false
  let (status, g) ← saveAt hash a seen gq gw cnf h1 h2
  let ps := { ps with gdb := g }
  let ps ← if status = .success then do
      let q ← enqueueUnique ps.queue s1
      let q ← enqueueUnique q s2
      pure { ps with queue := q }
    else pure ps
  pure (if s1.value ≠ none ∧ s2.value ≠ none then { ps with leaves := ps.leaves ++ [cnf.id] } else ps)

theorem expandAtF_le (n : Nat) (seen : List H) (gr gq gw : Gdb H) (ps : PS H) :
    M.le (expandAtF hash a im n seen gr gq gw ps) (expandAt hash a im seen gr gq gw ps) := by
  unfold expandAtF expandAt
  apply M.le.bind (M.le.refl _)
  rintro ⟨cnf, q⟩
  apply M.le.bind (M.le.refl _)
  rintro ⟨s1, s2, pl, cnf⟩
  apply M.le.bind (processChildF_le hash a im n _ _ _ _)
  rintro ⟨ps1, s1⟩
  exact M.le.bind (processChildF_le hash a im n _ _ _ _) fun _ => M.le.refl _

/-- What happens next: a pass of a process that reads the current table, a pass that still reads the table of the start,
a process handing over its queue. -/
inductive Act
  | run (i : Nat)
  | stale (i : Nat)
  | spawn (i : Nat)

def initAll (g : Gdb H) : List (SetObj H) → M (List (PS H))
  | [] => pure []
  | x :: xs => do
    let p ← initPS hash a g 0 x
    let ps ← initAll g xs
    pure (p :: ps)

theorem initAll_spec {g : Gdb H} : ∀ {xs : List (SetObj H)} {ps : List (PS H)}, initAll hash a g xs = pure ps →
    List.Forall₂ (fun x p => initPS hash a g 0 x = pure p) xs ps := by
  intro xs
  induction xs with
  | nil => intro ps h; rw [← (M.pure_inj _ _).1 h]; exact .nil
  | cons x xs ih =>
    intro ps h
    obtain ⟨p, h1, h⟩ := M.bind_eq_pure.1 h
    obtain ⟨ps', h2, h⟩ := M.bind_eq_pure.1 h
    rw [← (M.pure_inj _ _).1 h]
    exact .cons h1 (ih h2)

def actF (n : Nat) (seen : List H) (g0 : Gdb H) (S : Shared H) : Act → M (Shared H)
  | .run i => match S.procs[i]? with
    | none => diverge
    | some ps => if keepGoing a ps then do
        let ps' ← expandAtF hash a im n seen S.gdb S.gdb S.gdb ps
        pure { gdb := ps'.gdb, procs := S.procs.set i ps' }
      else diverge
  | .stale i => match S.procs[i]? with
    | none => diverge
    | some ps => if keepGoing a ps then do
        let ps' ← expandAtF hash a im n seen g0 g0 S.gdb ps
        pure { gdb := ps'.gdb, procs := S.procs.set i ps' }
      else diverge
  | .spawn i => match S.procs[i]? with
    | none => diverge
    | some ps => do
      let (nodes, q) ← popMany ps.queue.size ps.queue
      let news ← initAll hash a S.gdb nodes
      pure { gdb := S.gdb, procs := S.procs.set i { ps with queue := q } ++ news }

def actsF (n : Nat) (seen : List H) (g0 : Gdb H) : List Act → Shared H → M (Shared H)
  | [], S => pure S
  | x :: xs, S => do
    let S ← actF hash a im n seen g0 S x
    actsF n seen g0 xs S

theorem insertRow_le (g : Gdb H) (h : H) (r : Row H) : Gdb.le g (g.insertRow h r).2 := by
  unfold Gdb.insertRow
  split
  · exact Gdb.le_refl _
  · next hc =>
    intro k r' hr
    refine ⟨r', ?_, rfl, rfl, rfl, rfl, rfl⟩
    rw [Dict.get?_set_ne]
    · exact hr
    · rintro rfl
      apply hc
      unfold Dict.contains; rw [hr]; rfl

theorem expandAt_le {seen : List H} {gr gq gw : Gdb H} {ps ps' : PS H} (h : expandAt hash a im seen gr gq gw ps = pure ps') :
    Gdb.le gw ps'.gdb := by
  unfold expandAt at h
  obtain ⟨⟨cnf, q⟩, _, h⟩ := M.bind_eq_pure.1 h
  obtain ⟨⟨s1, s2, pl, cnf⟩, _, h⟩ := M.bind_eq_pure.1 h
  obtain ⟨⟨p1, s1⟩, _, h⟩ := M.bind_eq_pure.1 h
  obtain ⟨⟨p2, s2⟩, _, h⟩ := M.bind_eq_pure.1 h
  obtain ⟨⟨d1, s1⟩, _, h⟩ := M.bind_eq_pure.1 h
  obtain ⟨⟨d2, s2⟩, _, h⟩ := M.bind_eq_pure.1 h
  obtain ⟨⟨status, g⟩, hsave, h⟩ := M.bind_eq_pure.1 h
  have hg : Gdb.le gw g := by
    unfold saveAt at hsave
    obtain ⟨⟨ch, cnf⟩, _, hsave⟩ := M.bind_eq_pure.1 hsave
    obtain ⟨nv, _, hsave⟩ := M.bind_eq_pure.1 hsave
    split at hsave
    · obtain ⟨body, _, hsave⟩ := M.bind_eq_pure.1 hsave
      have e := (M.pure_inj _ _).1 hsave
      have e2 : g = _ := (congrArg Prod.snd e).symm
      rw [e2]; exact insertRow_le _ _ _
    · have e := (M.pure_inj _ _).1 hsave
      have e2 : g = gw := (congrArg Prod.snd e).symm
      rw [e2]; exact Gdb.le_refl _
  simp only at h
  split at h
  · obtain ⟨q1, _, h⟩ := M.bind_eq_pure.1 h
    obtain ⟨q2, _, h⟩ := M.bind_eq_pure.1 h
    have e := (M.pure_inj _ _).1 h
    have : ps'.gdb = g := by rw [← e]; split <;> rfl
    rw [this]; exact hg
  · rw [M.pure_bind] at h
    have e := (M.pure_inj _ _).1 h
    have : ps'.gdb = g := by rw [← e]; split <;> rfl
    rw [this]; exact hg

theorem Gdb.le_trans' {g1 g2 g3 : Gdb H} (h1 : Gdb.le g1 g2) (h2 : Gdb.le g2 g3) : Gdb.le g1 g3 := by
  intro k r hr
  obtain ⟨r1, e1, a1, a2, a3, a4, a5⟩ := h1 k r hr
  obtain ⟨r2, e2, b1, b2, b3, b4, b5⟩ := h2 k r1 e1
  exact ⟨r2, e2, by rw [b1, a1], by rw [b2, a2], by rw [b3, a3], by rw [b4, a4], by rw [b5, a5]⟩

theorem Shared.Reached.le {seen : List H} {g0 : Gdb H} {s : SetObj H} {S : Shared H}
    (h : Shared.Reached hash a im seen g0 s S) : Gdb.le g0 S.gdb := by
  induction h with
  | start => exact Gdb.le_refl _
  | step h hs ih =>
    cases hs with
    | run i ps ps' gr gq hi hg0 hgr hgq hgo h => exact Gdb.le_trans' ih (expandAt_le hash a im h)
    | spawn => exact ih

theorem actF_spec {n : Nat} {seen : List H} {g0 : Gdb H} {s : SetObj H} {S S' : Shared H} {x : Act}
    (hS : Shared.Reached hash a im seen g0 s S) (h : actF hash a im n seen g0 S x = pure S') :
    Shared.Reached hash a im seen g0 s S' := by
  have hle := hS.le
  unfold actF at h
  cases x with
  | run i =>
    simp only at h
    split at h
    · exact absurd h (M.diverge_ne_pure _)
    · next ps hi =>
      split at h
      · next hk =>
        obtain ⟨ps', h1, h⟩ := M.bind_eq_pure.1 h
        rw [← (M.pure_inj _ _).1 h]
        exact .step hS (.run S i ps ps' S.gdb S.gdb hi hle (Gdb.le_refl _) (Gdb.le_refl _) hk
          ((expandAtF_le hash a im n seen _ _ _ ps).pure h1))
      · exact absurd h (M.diverge_ne_pure _)
  | stale i =>
    simp only at h
    split at h
    · exact absurd h (M.diverge_ne_pure _)
    · next ps hi =>
      split at h
      · next hk =>
        obtain ⟨ps', h1, h⟩ := M.bind_eq_pure.1 h
        rw [← (M.pure_inj _ _).1 h]
        exact .step hS (.run S i ps ps' g0 g0 hi (Gdb.le_refl _) (Gdb.le_refl _) hle hk
          ((expandAtF_le hash a im n seen _ _ _ ps).pure h1))
      · exact absurd h (M.diverge_ne_pure _)
  | spawn i =>
    simp only at h
    split at h
    · exact absurd h (M.diverge_ne_pure _)
    · next ps hi =>
      obtain ⟨⟨nodes, q⟩, h1, h⟩ := M.bind_eq_pure.1 h
      obtain ⟨news, h2, h⟩ := M.bind_eq_pure.1 h
      rw [← (M.pure_inj _ _).1 h]
      exact .step hS (.spawn S i ps nodes q news hi h1 (initAll_spec hash a h2))

theorem actsF_spec {n : Nat} {seen : List H} {g0 : Gdb H} {s : SetObj H} : ∀ {xs : List Act} {S S' : Shared H},
    Shared.Reached hash a im seen g0 s S → actsF hash a im n seen g0 xs S = pure S' →
    Shared.Reached hash a im seen g0 s S' := by
  intro xs
  induction xs with
  | nil => intro S S' hS h; rw [← (M.pure_inj _ _).1 h]; exact hS
  | cons x xs ih =>
    intro S S' hS h
    obtain ⟨S1, h1, h⟩ := M.bind_eq_pure.1 h
    exact ih (actF_spec hash a im hS h1) h

end NDP
