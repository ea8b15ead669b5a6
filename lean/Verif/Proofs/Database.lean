import Verif.Props.Shared
import Verif.Model.Database
/- Rows of a table stay of one mode; the tables of the data base. -/
namespace NDP
open Spec SetObj
variable {H : Type} [DecidableEq H] (hash : Str → H) {a : Args}

/-- Every row of the table is right for the mode `m`. -/
def TableSoundIn (m : Mode) (g : Gdb H) : Prop := ∀ h r, Dict.get? g h = some r → RowSound hash m h r

theorem TableSoundIn.sound {m : Mode} {g : Gdb H} (h : TableSoundIn hash m g) : TableSound hash g :=
  fun k r hr => ⟨m, h k r hr⟩

/-- A row is right in mode `m` if some row of the same text, digest and children is. -/
theorem RowSound.swap {m m' : Mode} {k : H} {r r' : Row H} (h : RowSound hash m k r) (h' : RowSound hash m' k r')
    (hb : r.body = r'.body) (h1 : r.cid1 = r'.cid1) (h2 : r.cid2 = r'.cid2) : RowSound hash m k r' := by
  obtain ⟨G, x, xs, cs, hG, ha, e1, e2, e3, l1, l2, e4, hv⟩ := h
  obtain ⟨G', x', xs', cs', hG', ha', e1', e2', e3', _, _, e4', hv'⟩ := h'
  have e : G = G' := textOf_inj (by rw [hG]; simp) (by rw [hG']; simp) (fun c hc => (ha c hc).1) (fun c hc => (ha' c hc).1)
    (by rw [← e1, ← e1', hb])
  subst e
  exact ⟨G, x, xs, cs, hG, ha, e1', e2', e3', h1 ▸ l1, h2 ▸ l2, e4', hv⟩

/-- The rows a run adds are right in the mode in which it normalises its nodes. -/
theorem SInv.rowsIn {im : Mode} {R F0 : Cnf} (hR : Proper R) {T : Str → Prop} (hcl : NoClash hash T)
    (hbel : ∀ G, Below F0 G → T (textOf G)) {g0 : Gdb H} {S : Shared H}
    {L : List (List (SetObj H))} (h : SInv hash a im R F0 T g0 S L) (h0 : TableSoundIn hash im g0) :
    TableSoundIn hash im S.gdb := by
  intro k r hr
  rcases h.linked k r hr with h1 | ⟨x, k1, k2, hc, hb, e1, e2, e3, _⟩
  · exact h0 k r h1
  · obtain ⟨m, hm⟩ := h.table k r hr
    obtain ⟨nv, hnv⟩ : ∃ nv, numOfVars x = pure nv := by
      unfold numOfVars
      cases hg : x.clauses.getLast? with
      | none => exact ⟨_, rfl⟩
      | some c =>
        cases hg' : c.raw.getLast? with
        | some l => exact ⟨l.natAbs, by simp [hg']⟩
        | none =>
          have hcm : c ∈ x.clauses := List.mem_of_getLast? hg
          have := (hc.1.shape.wf.2 c.raw (List.mem_map.2 ⟨c, hcm, rfl⟩)).1
          exact absurd (List.getLast?_eq_none_iff.1 hg') this
    have hrow := hc.row hash a im hR hnv
    rw [e1] at hrow
    refine hrow.swap hash hm ?_ e2 e3
    have hT2 : T (bodyStr x.clauses) := by
      rw [bodyStr_text hc.1.shape.sto.cne]
      exact hbel _ hb
    obtain ⟨_, _, _, _, _, _, _, e5, _⟩ := hm
    obtain ⟨_, _, _, _, _, _, _, e6, _⟩ := hrow
    exact hcl _ _ hT2 (h.tabS k r hr) (e6.symm.trans e5)

/-- The passes of one process are a run of the shared model. -/
theorem Passes.reached {im : Mode} {R : Cnf} (hR : Proper R) {s : SetObj H} (h : Ready hash a R s) {T : Str → Prop}
    {g : Gdb H} {seen : List H} (hC : Ctx hash a (raws s.clauses) T g seen) {ps0 ps : PS H}
    (h0 : initPS hash a g 1 s = pure ps0) {n : Nat} (hp : Passes hash a im seen n ps0 ps) :
    Shared.Reached hash a im seen g s { gdb := ps.gdb, procs := [ps] } := by
  have hg : ps0.gdb = g := by
    unfold initPS at h0
    obtain ⟨_, _, h0⟩ := M.bind_eq_pure.1 h0
    obtain ⟨_, _, h0⟩ := M.bind_eq_pure.1 h0
    split at h0
    · exact absurd h0 (M.raise_ne_pure _ _)
    · rw [← (M.pure_inj _ _).1 h0]
  have key : ∀ {n : Nat} {ps : PS H}, Passes hash a im seen n ps0 ps →
      Shared.Reached hash a im seen g s { gdb := ps.gdb, procs := [ps] } := by
    intro n ps hp
    generalize hps0 : ps0 = q at hp
    induction hp with
    | refl q => subst hps0; rw [hg]; exact .start _ h0
    | @step n q ps1 ps2 hp hgo hrun ih =>
      subst hps0
      obtain ⟨l, hl⟩ := killed_sound hash a im hR h hC h0 hp
      rw [expand_eq] at hrun
      have := Shared.Step.run (hash := hash) (a := a) (im := im) (seen := seen) (g0 := g)
        { gdb := ps1.gdb, procs := [ps1] } 0 ps1 ps2 ps1.gdb ps1.gdb rfl (le_of_old hl.old) (Gdb.le_refl _) (Gdb.le_refl _) hgo hrun
      exact .step (ih rfl) this
  exact key hp

/-- A run of the main process without workers is a number of passes. -/
theorem runMain_passes {im : Mode} {g : Gdb H} {fails : Nat → Bool} {sched : List Bool} {s : SetObj H} {seen : List H}
    {ps : PS H} (hrun : runMain hash a im seen g 0 fails sched s = pure ps) :
    ∃ ps0 n, initPS hash a g 1 s = pure ps0 ∧ Passes hash a im seen n ps0 ps := by
  unfold runMain at hrun
  obtain ⟨ps0, h0, hrun⟩ := M.bind_eq_pure.1 hrun
  have : ∃ n, Passes hash a im seen n ps0 ps := by
    refine pyWhile_partial (step := mainStep hash a im seen 0 fails sched)
      (fun st => ∃ n, Passes hash a im seen n ps0 st.ps)
      (fun ps => ∃ n, Passes hash a im seen n ps0 ps) ?_ ?_ _ _ ⟨0, .refl _⟩ hrun
    · rintro st st' ⟨n, hn⟩ hst
      unfold mainStep at hst
      split at hst
      · next hk =>
        obtain ⟨ps1, h1, hst⟩ := M.bind_eq_pure.1 hst
        simp only [Nat.lt_irrefl, decide_false, Bool.and_false, Bool.false_and, Bool.false_eq_true, if_false] at hst
        have e := (M.pure_inj _ _).1 hst
        have e : { st with ps := ps1 } = st' := by simpa using e
        rw [← e]
        exact ⟨n + 1, .step hn hk h1⟩
      · have e := (M.pure_inj _ _).1 hst
        simp at e
    · rintro st r ⟨n, hn⟩ hst
      unfold mainStep at hst
      split at hst
      · obtain ⟨ps1, h1, hst⟩ := M.bind_eq_pure.1 hst
        simp only [Nat.lt_irrefl, decide_false, Bool.and_false, Bool.false_and, Bool.false_eq_true, if_false] at hst
        have e := (M.pure_inj _ _).1 hst
        simp at e
      · have e := (M.pure_inj _ _).1 hst
        have e : st.ps = r := by simpa using e
        rw [← e]
        exact ⟨n, hn⟩
  obtain ⟨n, hn⟩ := this
  exact ⟨ps0, n, h0, hn⟩

/-! ### names -/

section
variable {H : Type}

theorem lower_tableName (m : Mode) : lower (tableName m) = tableName m := by cases m <;> decide

theorem tableName_inj {m m' : Mode} (h : tableName m = tableName m') : m = m' := by
  revert h; cases m <;> cases m' <;> decide

theorem get?_createTable (db : Database H) (n k : Str) : Dict.get? (createTable db n) k =
    if lower n = k then some ((Dict.get? db k).getD []) else Dict.get? db k := by
  unfold createTable
  by_cases hc : Dict.contains db (lower n) = true
  · rw [if_pos hc]
    split
    · next e =>
      subst e
      unfold Dict.contains at hc
      cases hg : Dict.get? db (lower n) with
      | none => rw [hg] at hc; simp at hc
      | some g => simp
    · rfl
  · rw [if_neg hc, Dict.get?_set]
    split
    · next e =>
      subst e
      unfold Dict.contains at hc
      cases hg : Dict.get? db (lower n) with
      | none => simp
      | some g => rw [hg] at hc; simp at hc
    · rfl

theorem get?_dropTable (db : Database H) (n k : Str) :
    Dict.get? (dropTable db n) k = if n = k then none else Dict.get? db k := by
  unfold dropTable
  induction db with
  | nil => simp
  | cons p db ih =>
    simp only [List.filter_cons]
    by_cases e : p.1 = n
    · subst e
      simp only [ne_eq, not_true_eq_false, decide_false, Bool.false_eq_true, if_false]
      rw [ih, Dict.get?_cons]
      split <;> rfl
    · simp only [ne_eq, e, not_false_eq_true, decide_true, if_true]
      rw [Dict.get?_cons, Dict.get?_cons, ih]
      by_cases e2 : p.1 = k
      · subst e2
        simp only [if_true]
        rw [if_neg (fun h => e h.symm)]
      · rw [if_neg e2, if_neg e2]

theorem openTable_eq (db : Database H) (m : Mode) : openTable db m = (Dict.get? db (tableName m)).getD [] := by
  unfold openTable
  rw [get?_createTable, lower_tableName, if_pos rfl]
  rfl

theorem get?_closeTable (db : Database H) (m : Mode) (g : Gdb H) (k : Str) : Dict.get? (closeTable db m g) k =
    if tableName m = k then some g else Dict.get? db k := by
  unfold closeTable
  rw [Dict.get?_set]
  split
  · rfl
  · next e => rw [get?_createTable, lower_tableName, if_neg e]

end
end NDP
