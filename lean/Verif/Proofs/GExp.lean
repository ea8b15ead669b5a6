import Verif.Proofs.GPass
/- `expand` is `expandAt` on one table. -/
namespace NDP
open Spec SetObj
variable {H : Type} [DecidableEq H] (hash : Str → H) (a : Args) (im : Mode)

theorem M.bind_congr {α β : Type} {m : M α} {f g : α → M β} (h : ∀ x, m = pure x → f x = g x) : m >>= f = m >>= g := by
  match m, h with
  | none, _ => rfl
  | some (.error e), _ => rfl
  | some (.ok x), h => exact h x rfl

theorem processChild_gdb {pl : Bool} {pid : Option H} {ps ps' : PS H} {ch c' : SetObj H}
    (h : processChild hash a im pl pid ps ch = pure (ps', c')) : ps'.gdb = ps.gdb := by
  have tail : ∀ (ps : PS H) (child : SetObj H), (do
      let _ ← child.toStr
      let (_, child) ← child.getHash hash false
      match child.status, child.id with
      | some .unique, some cid => do
        let nc := ps.nodesChildren.set cid []
        let nc ← appendChild nc pid cid
        pure ({ ps with uniques := ps.uniques + 1, nodesChildren := nc }, child)
      | some .redundant, some cid => do
        let nc ← appendChild ps.nodesChildren pid cid
        pure ({ ps with redundantHits := ps.redundantHits + 1,
                        redundantIds := if cid ∈ ps.redundantIds then ps.redundantIds else ps.redundantIds ++ [cid],
                        nodesChildren := nc }, child)
      | _, _ => pure ({ ps with isSat := ps.isSat || (child.value == some true) }, child) : M (PS H × SetObj H)) = pure (ps', c') →
      ps'.gdb = ps.gdb := by
    intro ps child h
    obtain ⟨_, _, h⟩ := M.bind_eq_pure.1 h
    obtain ⟨⟨_, c2⟩, _, h⟩ := M.bind_eq_pure.1 h
    simp only at h
    split at h
    · obtain ⟨_, _, h⟩ := M.bind_eq_pure.1 h
      have := (M.pure_inj _ _).1 h
      simp only [Prod.mk.injEq] at this
      rw [← this.1]
    · obtain ⟨_, _, h⟩ := M.bind_eq_pure.1 h
      have := (M.pure_inj _ _).1 h
      simp only [Prod.mk.injEq] at this
      rw [← this.1]
    · have := (M.pure_inj _ _).1 h
      simp only [Prod.mk.injEq] at this
      rw [← this.1]
  unfold processChild at h
  obtain ⟨_, _, h⟩ := M.bind_eq_pure.1 h
  simp only at h
  split at h
  · rw [M.pure_bind] at h
    rw [tail _ _ h]
    split <;> rfl
  · rename_i hv
    cases pl
    · simp only [Bool.not_false, if_true] at h
      obtain ⟨_, _, h⟩ := M.bind_eq_pure.1 h
      obtain ⟨_, _, h⟩ := M.bind_eq_pure.1 h
      obtain ⟨_, _, h⟩ := M.bind_eq_pure.1 h
      obtain ⟨⟨_, _⟩, _, h⟩ := M.bind_eq_pure.1 h
      rw [M.pure_bind] at h
      exact tail _ _ h
    · simp only [Bool.not_true, Bool.false_eq_true, if_false] at h
      obtain ⟨_, _, h⟩ := M.bind_eq_pure.1 h
      obtain ⟨⟨_, _⟩, _, h⟩ := M.bind_eq_pure.1 h
      rw [M.pure_bind] at h
      exact tail _ _ h

theorem expand_eq (seen : List H) (ps : PS H) :
    expand hash a im seen ps = expandAt hash a im seen ps.gdb ps.gdb ps.gdb ps := by
  unfold expand expandAt
  apply M.bind_congr
  rintro ⟨cnf, q⟩ _
  simp only
  apply M.bind_congr
  rintro ⟨s1, s2, pl, cnf'⟩ _
  simp only
  apply M.bind_congr
  rintro ⟨p1, s1'⟩ h1
  have e1 : p1.gdb = ps.gdb := by
    rw [processChild_gdb hash a im h1]
    split <;> rfl
  simp only
  apply M.bind_congr
  rintro ⟨p2, s2'⟩ h2
  have e2 := processChild_gdb hash a im h2
  simp only
  apply M.bind_congr
  rintro ⟨d1, s1''⟩ _
  apply M.bind_congr
  rintro ⟨d2, s2''⟩ _
  simp only [e2, e1]
  rfl

end NDP
