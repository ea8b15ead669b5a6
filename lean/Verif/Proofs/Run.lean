import Verif.Proofs.Search
/- A whole run of one process (no global DB): it ends, and what it ends with. -/
namespace NDP
open Spec SetObj
variable {H : Type} [DecidableEq H] (hash : Str → H) (a : Args) (im : Mode)

theorem Tracks.ne_nil {R : Cnf} {s : SetObj H} (h : Tracks R s) : R ≠ [] := by
  rintro rfl
  have h1 := (SameClauses.eq_nil h.same).2 rfl
  have : s.clauses = [] := by
    simpa [mapCnf, raws] using h1
  exact h.node.ne this

theorem MakesTrue.ne_nil {R : Cnf} (hR : R ≠ []) {d : Dict Int Bool} (h : MakesTrue d R) : d ≠ [] := by
  rintro rfl
  match R with
  | [] => exact hR rfl
  | c :: cs =>
    obtain ⟨l, _, hl⟩ := h c (by simp)
    simp [partialVal] at hl

/-- `bool(solution)` is the satisfiability flag. -/
theorem truthy_iff {R : Cnf} (hR : R ≠ []) {sol : Option (Dict Int Bool)} {b : Bool}
    (h1 : b = true ↔ sol.isSome) (h2 : ∀ d, sol = some d → MakesTrue d R ∧ SolKeys d) : truthy sol = b := by
  match sol with
  | none => cases b <;> simp_all [truthy]
  | some [] => exact absurd rfl (MakesTrue.ne_nil hR (h2 [] rfl).1)
  | some (x :: xs) => cases b <;> simp_all [truthy]

/-- A node as it is handed to a process. -/
structure Ready (R : Cnf) (s : SetObj H) : Prop where
  tracks : Tracks R s
  id : s.id = some (hid hash s)
  pos : a.useRuntimeDb = true → EvPos s
  cache : s.computedHash = some (hid hash s) ∨ (a.useRuntimeDb = true ∧ s.computedHash = none)

theorem initPS_ok (g : Gdb H) (u : Nat) {R : Cnf} {s : SetObj H} (h : Ready hash a R s) :
    ∃ ps, initPS hash a g u s = pure ps ∧ Inv hash a im R s (hid hash s) ps [store a.useRuntimeDb s] ∧
      ps.uniques = u ∧ ps.isSat = false ∧ ps.nodesChildren = [(hid hash s, [])] := by
  obtain ⟨ht, hi, hp, hc⟩ := h
  have hstr : s.toStr = pure (bodyStr s.clauses) := toStr_ok ht.node.value ht.node.ne
  have hgh : ∃ s', s.getHash hash false = pure (hid hash s, s') ∧
      s' = { s with computedHash := some (hid hash s) } := by
    unfold getHash
    rcases hc with hc | ⟨_, hc⟩
    · rw [hc]; refine ⟨_, rfl, ?_⟩; rw [← hc]
    · rw [hc, hstr]; exact ⟨_, rfl, rfl⟩
  obtain ⟨s', hgh, hs'⟩ := hgh
  have hst : store a.useRuntimeDb s' = store a.useRuntimeDb s := by
    rw [hs']
    rcases hc with hc | ⟨hd, _⟩
    · rw [← hc]
    · simp [store, hd, decode]
  have hid' : s'.id = some (hid hash s) := by rw [hs']; exact hi
  have hsto : Storable s' := by
    have := ht.storable
    rw [hs']; exact { this with }
  obtain ⟨q', hq, hrep, hdb, hrows⟩ := (Rep.empty (H := H) a.useRuntimeDb).insert hid' hsto
    (by intro hd; have := hp hd; rw [hs']; exact this) (by simp)
  have hrun : initPS hash a g u s = pure { queue := q', nodesChildren := [(hid hash s, [])], uniques := u, gdb := g } := by
    unfold initPS
    rw [hgh]
    simp only [M.pure_bind, hq, hid']
  refine ⟨_, hrun, ?_, rfl, rfl, rfl⟩
  simp only [hst, List.nil_append] at hrep
  have htr := ht.store a.useRuntimeDb
  have hhid := hid_store hash ht.node a.useRuntimeDb
  refine ⟨hrep, hdb, ?_, ?_, by simp, ?_, by simp, by simp, by simp, ?_, by simp⟩
  · intro hd k hk
    rcases hrows k hk with rfl | hk
    · simp
    · simp at hk
  · intro x hx
    rw [List.mem_singleton] at hx
    subst hx
    refine ⟨htr, Met.root, fun hd => (hp hd).store _, ?_, ?_⟩
    · rw [id_store, hhid, hi]
    · rw [hhid]; simp
  · intro k ks hk
    left
    refine ⟨store a.useRuntimeDb s, by simp, ?_⟩
    rw [hhid]
    simp only [Dict.get?_cons, Dict.get?_nil] at hk
    split at hk
    · next e => simpa using e
    · simp at hk
  · intro k hk
    have : k = hid hash s := by simpa using hk
    rw [this]

/-- The loop condition, in the words of the invariant. -/
theorem Inv.keepGoing {R : Cnf} (hR : R ≠ []) {s0 : SetObj H} {root : H} {ps : PS H} {l : List (SetObj H)}
    (h : Inv hash a im R s0 root ps l) :
    keepGoing a ps = (!l.isEmpty && !(ps.isSat && a.exitUponSolving)) := by
  unfold NDP.keepGoing Queue.isEmpty
  rw [h.rep.size, truthy_iff hR h.sat h.sol]
  cases l <;> simp

/-- Why the loop of a process stopped. -/
def Stopped (ps : PS H) (l : List (SetObj H)) : Prop := l = [] ∨ (a.exitUponSolving = true ∧ ps.isSat = true)

/-- A process that spawns no workers always finishes. -/
theorem runWorker_ok (hg : a.useGlobalDb = false) (seen : List H) (g : Gdb H) (u : Nat) {R : Cnf} (hR : Proper R)
    {s : SetObj H} (hs : Ready hash a R s) :
    ∃ ps l, runWorker hash a im seen g u s = pure ps ∧ Inv hash a im R s (hid hash s) ps l ∧ Stopped a ps l ∧
      ps.uniques + 1 = u + ps.nodesChildren.length := by
  obtain ⟨ps0, h0, hinv, hu, _, hnc⟩ := initPS_ok hash a im g u hs
  have hne := hs.tracks.ne_nil
  obtain ⟨ps, hrun, l, h1, h2, h3⟩ := pyWhile_totalN (step := workerStep hash a im seen)
    (fun n ps => ∃ l, Inv hash a im R s (hid hash s) ps l ∧ weight l = n ∧
      ps.uniques + 1 = u + ps.nodesChildren.length)
    (fun ps => ∃ l, Inv hash a im R s (hid hash s) ps l ∧ Stopped a ps l ∧
      ps.uniques + 1 = u + ps.nodesChildren.length)
    (by
      rintro n ps ⟨l, hi, hw, hc⟩
      unfold workerStep
      by_cases hk : NDP.keepGoing a ps = true
      · left
        rw [if_pos hk]
        rw [hi.keepGoing hash a im hne] at hk
        match l, hi, hw with
        | [], _, _ => simp at hk
        | x :: l, hi, hw =>
          obtain ⟨ps', l', e1, e2, e3, _, _, _, e7⟩ := hi.step hash a im hg seen hR
          refine ⟨ps', weight l', by rw [e1]; rfl, ⟨l', e2, rfl, by omega⟩, by omega⟩
      · right
        rw [if_neg hk]
        refine ⟨ps, rfl, l, hi, ?_, hc⟩
        rw [hi.keepGoing hash a im hne] at hk
        unfold Stopped
        cases l <;> simp_all)
    _ ps0 ⟨_, hinv, rfl, by rw [hu, hnc]; rfl⟩
  refine ⟨ps, l, ?_, h1, h2, h3⟩
  unfold runWorker
  rw [h0]; exact hrun

end NDP
