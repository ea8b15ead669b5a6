import Verif.Proofs.GInv
/- A whole run of one process on a sound table. -/
namespace NDP
open Spec SetObj
variable {H : Type} [DecidableEq H] (hash : Str → H) (a : Args) (im : Mode)

theorem pivot_mem_of_wf {G : Cnf} (h : Wf G) : pivotOf G ∈ varsOf G :=
  pivot_mem h.1 (fun c hc => (h.2 c hc).1)

theorem size_subF_lt {G : Cnf} (h : Wf G) (b : Bool) : size (subF G b) < size G :=
  size_branch_lt (pivot_mem_of_wf h)

theorem sub_sat {G : Cnf} (h : Satisfiable G) : ∃ b, [] ∉ subF G b ∧ Satisfiable (subF G b) :=
  branch_children (pivotOf G) h

theorem GInv.unsat {R F0 : Cnf} {S : Str → Prop} {g0 : Gdb H} {seen : List H} (hC : Ctx hash a F0 S g0 seen)
    {ps : PS H} (h : GInv hash a R F0 S g0 ps []) (hns : ps.isSat = false) :
    ∀ n G, size G ≤ n → Below F0 G → hash (textOf G) ∈ ps.nodesChildren.keys → ¬ Satisfiable G := by
  intro n
  induction n with
  | zero =>
    intro G hn hb _ _
    have hw := hb.wf hC.wf
    have := size_subF_lt hw true
    omega
  | succ n ih =>
    intro G hn hb hk hs
    obtain ⟨ks, hks⟩ := Dict.exists_get?_of_mem hk
    rcases h.done _ _ hks with ⟨x, hx, _⟩ | ⟨G', hb', he, hd⟩
    · simp at hx
    · have hw := hb.wf hC.wf
      have hw' := hb'.wf hC.wf
      have e : G = G' := textOf_inj hw.1 hw'.1 (fun c hc => (hw.2 c hc).1) (fun c hc => (hw'.2 c hc).1)
        (hC.clash _ _ (hC.below _ hb) (hC.below _ hb') he)
      subst e
      obtain ⟨b, h1, h2⟩ := sub_sat hs
      by_cases hnil : subF G b = []
      · have := (hd b).1 hnil
        rw [hns] at this; simp at this
      · obtain ⟨mode, N, hN, hmem⟩ := (hd b).2 hnil h1
        have hsz := size_subF_lt hw b
        refine ih N (by rw [hN.size]; omega) (Below.child hb hnil h1 hN) hmem ?_
        exact (hN.sat (sub_zero fun c hc => (hw.2 c hc).2.1)).2 h2

/-- The verdict of a process that has stopped. -/
theorem GInv.verdict {R F0 : Cnf} {S : Str → Prop} {g0 : Gdb H} {seen : List H} (hC : Ctx hash a F0 S g0 seen)
    {ps : PS H} {l : List (SetObj H)} (h : GInv hash a R F0 S g0 ps l) (hstop : keepGoing a ps = false) :
    ps.isSat = true ↔ Satisfiable F0 := by
  refine ⟨h.sat, fun hs => ?_⟩
  by_contra hns
  have hns : ps.isSat = false := by simpa using hns
  have hsol : ps.solution = none := by
    have := h.both
    rw [hns] at this
    simpa using this
  unfold keepGoing Queue.isEmpty at hstop
  rw [h.rep.size, hsol] at hstop
  match l, h with
  | [], h =>
    exact h.unsat hash a hC hns _ F0 (Nat.le_refl _) Below.root h.root hs
  | x :: l, _ => simp [truthy] at hstop

theorem initPS_ginv' (g : Gdb H) (u : Nat) {R : Cnf} {s : SetObj H} (h : Ready hash a R s) {S : Str → Prop} {seen : List H}
    (hC : Ctx hash a (raws s.clauses) S g seen) {ps : PS H} (hrun : initPS hash a g u s = pure ps) :
    GInv hash a R (raws s.clauses) S g ps [store a.useRuntimeDb s] ∧ ps.gdb = g ∧ ps.nodesChildren = [(hid hash s, [])] := by
  obtain ⟨ps', h0, hi, hu, hsat, hnc⟩ := initPS_ok hash a Mode.flo g u h
  have e := (M.pure_inj _ _).1 (hrun.symm.trans h0)
  subst e
  have hgdb : ps.gdb = g := by
    unfold initPS at hrun
    obtain ⟨⟨_, c⟩, _, hrun⟩ := M.bind_eq_pure.1 hrun
    obtain ⟨_, _, hrun⟩ := M.bind_eq_pure.1 hrun
    split at hrun
    · exact absurd hrun (M.raise_ne_pure _ _)
    · rw [← (M.pure_inj _ _).1 hrun]
  refine ⟨⟨hi.rep, hi.db, hi.rows, ?_, hi.ids, ?_, ?_, ?_, ?_, ?_, ?_, ?_, ?_, ?_, ?_⟩, hgdb, hnc⟩
  · intro x hx
    obtain ⟨b1, b2, b3, b4, b5⟩ := hi.items x hx
    rw [List.mem_singleton] at hx
    subst hx
    refine ⟨b1.gitem, by rw [raws_store]; exact Below.root, b3, b4, ?_, b5⟩
    have hh := hid_store hash h.tracks.node a.useRuntimeDb
    rw [hh]
    unfold store
    split
    · right; rfl
    · rcases h.cache with hc | ⟨hd, hc⟩
      · exact Or.inl hc
      · exact Or.inr hc
  · intro k ks hk
    left
    rw [hnc] at hk
    refine ⟨_, List.mem_singleton.2 rfl, ?_⟩
    rw [hid_store hash h.tracks.node]
    simp only [Dict.get?_cons, Dict.get?_nil] at hk
    split at hk
    · next e => simpa using e
    · simp at hk
  · rw [hsat]; simp
  · exact hi.sat
  · intro d hd; exact Or.inr (hi.sol d hd)
  · rw [hnc, ← h.tracks.shape.hid_eq hash]; simp
  · rw [hgdb]; exact hC.sound
  · rw [hgdb]; exact hC.body
  · rw [hgdb]; intro k hk; exact Or.inl hk
  · rw [hgdb]; intro k r hk; exact hk
  · rw [hgdb]; intro k r hk; exact Or.inl hk

theorem initPS_ginv (g : Gdb H) (u : Nat) {R : Cnf} {s : SetObj H} (h : Ready hash a R s) {S : Str → Prop} {seen : List H}
    (hC : Ctx hash a (raws s.clauses) S g seen) {ps : PS H} (hrun : initPS hash a g u s = pure ps) :
    ∃ l, GInv hash a R (raws s.clauses) S g ps l := ⟨_, (initPS_ginv' hash a g u h hC hrun).1⟩

/-- A run of the main process that spawns no workers, on a sound table. -/
theorem runMain_ginv (g : Gdb H) {fails : Nat → Bool} {sched : List Bool} {R : Cnf} (hR : Proper R) {s : SetObj H}
    (h : Ready hash a R s) {S : Str → Prop} {seen : List H} (hC : Ctx hash a (raws s.clauses) S g seen) {ps : PS H}
    (hrun : runMain hash a im seen g 0 fails sched s = pure ps) :
    ∃ l, GInv hash a R (raws s.clauses) S g ps l ∧ keepGoing a ps = false := by
  unfold runMain at hrun
  obtain ⟨ps0, h0, hrun⟩ := M.bind_eq_pure.1 hrun
  obtain ⟨l0, hi⟩ := initPS_ginv hash a g 1 h hC h0
  refine pyWhile_partial (step := mainStep hash a im seen 0 fails sched)
    (fun st => ∃ l, GInv hash a R (raws s.clauses) S g st.ps l)
    (fun ps => ∃ l, GInv hash a R (raws s.clauses) S g ps l ∧ keepGoing a ps = false) ?_ ?_ _ _ ⟨l0, hi⟩ hrun
  · rintro st st' ⟨l, hl⟩ hst
    unfold mainStep at hst
    split at hst
    · next hk =>
      obtain ⟨ps1, h1, hst⟩ := M.bind_eq_pure.1 hst
      simp only [Nat.lt_irrefl, decide_false, Bool.and_false, Bool.false_and, Bool.false_eq_true, if_false] at hst
      have e := (M.pure_inj _ _).1 hst
      have e : { st with ps := ps1 } = st' := by simpa using e
      rw [← e]
      match l, hl with
      | [], hl =>
        unfold keepGoing Queue.isEmpty at hk
        rw [hl.rep.size] at hk
        simp at hk
      | x :: l, hl => exact hl.step hash a im hR hC h1
    · have e := (M.pure_inj _ _).1 hst
      simp at e
  · rintro st r ⟨l, hl⟩ hst
    unfold mainStep at hst
    split at hst
    · obtain ⟨ps1, h1, hst⟩ := M.bind_eq_pure.1 hst
      simp only [Nat.lt_irrefl, decide_false, Bool.and_false, Bool.false_and, Bool.false_eq_true, if_false] at hst
      have e := (M.pure_inj _ _).1 hst
      simp at e
    · next hk =>
      have e := (M.pure_inj _ _).1 hst
      have e : st.ps = r := by simpa using e
      rw [← e]
      exact ⟨l, hl, by simpa using hk⟩

end NDP
