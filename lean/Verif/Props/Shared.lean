import Verif.Props.Gdb
import Verif.Proofs.SharedInv
import Verif.Proofs.SharedExec
/-
  C36, C37, C40: histories of runs on one global table, and several processes working on it at the same time.
  Vocabulary: `SpecGdb.lean`; the processes: `Model/Shared.lean`.
-/
namespace NDP
open Spec SetObj
variable {H : Type} [DecidableEq H] (hash : Str → H) {a : Args}

/-- The texts below the normalised root are among `T`. -/
def TextsBelow (T : Str → Prop) (s : SetObj H) : Prop := ∀ G, Below (raws s.clauses) G → T (textOf G)

/-- What can happen to the table: a run of one process that ends, a run of one process killed at any moment (or ended by
an exception), any moment of a run of several processes, statistics being saved. The runs can be on any formulas, with
any options. -/
inductive Happens (T : Str → Prop) : Gdb H → Gdb H → Prop
  | finished {a : Args} {env : EnvChoice} (ho : OneProcess a env) {F : Cnf} (hF : Proper F) (hne : F ≠ []) {root : SetObj H}
      (h : Input F root) {g : Gdb H} {rep : Report H} (hT : ∀ s k, prepareRoot hash a root = pure (s, k) → TextsBelow T s)
      (hrun : solveSet hash a env g root = pure rep) : Happens T g rep.gdb
  | killed {a : Args} (hg : a.useGlobalDb = true) {F : Cnf} (hF : Proper F) (hne : F ≠ []) {root : SetObj H} (h : Input F root)
      {g : Gdb H} {n : Nat} {s : SetObj H} {k : H} {ps : PS H} (hT : TextsBelow T s) (hk : KilledAt hash a g root n s k ps) :
      Happens T g ps.gdb
  | shared {a : Args} {F : Cnf} (hF : Proper F) (hne : F ≠ []) {root : SetObj H} (h : Input F root)
      {g : Gdb H} {s : SetObj H} {k : H} {S : Shared H} (hT : TextsBelow T s) (hs : SharedRun hash a g root s k S) :
      Happens T g S.gdb
  | saved (g : Gdb H) (stats : Dict H NodeStats) (red : Dict H Nat) : Happens T g (saveInGlobalDb g stats red)

theorem seenAtStart_ctx {T : Str → Prop} (hcl : NoClash hash T) (ht : T ['T']) (hf : T ['F']) (hg : a.useGlobalDb = true)
    {s : SetObj H} (hw : Wf (raws s.clauses)) (hT : TextsBelow T s) {g : Gdb H} (hsound : TableSound hash g)
    (hb : ∀ h r, Dict.get? g h = some r → T r.body) :
    Ctx hash a (raws s.clauses) T g (seenAtStart a g s.clauses.length) :=
  ⟨hw, hcl, ht, hf, hT, hb, hsound, fun hm _ _ hr hn => seenAtStart_mem a hg hm hr (by simpa [raws] using hn)⟩

theorem solveSet_cases {env : EnvChoice} (ho : OneProcess a env) {g : Gdb H} {F : Cnf} (hF : Proper F) (hne : F ≠ [])
    {root : SetObj H} (h : Input F root) {s : SetObj H} {k : H} (hs : prepareRoot hash a root = pure (s, k)) {rep : Report H}
    (hrun : solveSet hash a env g root = pure rep) : rep.gdb = g ∨
      ∃ ps, runMain hash a (inputMode a) (seenAtStart a g s.clauses.length) g 0 env.fails env.sched s = pure ps ∧
        finishG a k ps = pure rep := by
  by_cases hns : MarkedSolved g k
  · by_cases h2 : (if a.gdbNoMem then g.isSolved k else decide (k ∈ if (a.useGlobalDb && !a.gdbNoMem) = true then g.loadSolved s.clauses.length else [])) = true
    · left
      have ht : root.toStr = pure (bodyStr root.clauses) := toStr_ok (h.loaded hF hne).value (h.loaded hF hne).ne
      unfold solveSet at hrun
      simp only [ht, hs, M.pure_bind, h2, Bool.not_true, Bool.false_eq_true, if_false] at hrun
      split at hrun
      · exact absurd hrun (M.raise_ne_pure _ _)
      · rw [← (M.pure_inj _ _).1 hrun]
    · right
      have h2 := eq_false_of_ne_true h2
      have ht : root.toStr = pure (bodyStr root.clauses) := toStr_ok (h.loaded hF hne).value (h.loaded hF hne).ne
      unfold solveSet at hrun
      simp only [ht, hs, M.pure_bind, h2, Bool.not_false, if_true, ho.conn, Bool.and_false, Bool.false_eq_true, if_false,
        maxThreads_one a ho.threads] at hrun
      obtain ⟨ps, h3, h4⟩ := M.bind_eq_pure.1 hrun
      rw [ho.gdb] at h4
      refine ⟨ps, ?_, h4⟩
      unfold seenAtStart
      cases hl : (a.useGlobalDb && !a.gdbNoMem) <;> simpa [hl] using h3
  · right
    obtain ⟨rfl, _⟩ := ready_of_prepare hash hF hne h hs
    rw [solveSet_gdb hash a ho g (h.loaded hF hne) hs hns] at hrun
    obtain ⟨ps, h1, h2⟩ := M.bind_eq_pure.1 hrun
    exact ⟨ps, h1, h2⟩

theorem Gdb.le.trans {g1 g2 g3 : Gdb H} (h1 : Gdb.le g1 g2) (h2 : Gdb.le g2 g3) : Gdb.le g1 g3 := by
  intro k r hr
  obtain ⟨r1, e1, a1, a2, a3, a4, a5⟩ := h1 k r hr
  obtain ⟨r2, e2, b1, b2, b3, b4, b5⟩ := h2 k r1 e1
  exact ⟨r2, e2, by rw [b1, a1], by rw [b2, a2], by rw [b3, a3], by rw [b4, a4], by rw [b5, a5]⟩

theorem le_of_old {g g' : Gdb H} (h : ∀ k r, Dict.get? g k = some r → Dict.get? g' k = some r) : Gdb.le g g' :=
  fun k r hr => ⟨r, h k r hr, rfl, rfl, rfl, rfl, rfl⟩

theorem Gdb.same.body {g g' : Gdb H} (h : Gdb.same g g') {T : Str → Prop} (hb : ∀ k r, Dict.get? g k = some r → T r.body) :
    ∀ k r, Dict.get? g' k = some r → T r.body := by
  intro k r hr
  obtain ⟨r', hr', e⟩ := h.symm.get hr
  have : r'.body = r.body := congrArg (fun p => p.1) e
  rw [← this]; exact hb k r' hr'

theorem sharedRun_inv {T : Str → Prop} (hcl : NoClash hash T) (ht : T ['T']) (hf : T ['F']) {F : Cnf} (hF : Proper F)
    (hne : F ≠ []) {root : SetObj H} (h : Input F root) {g : Gdb H} {s : SetObj H} {k : H} {S : Shared H} (hT : TextsBelow T s)
    (hs : SharedRun hash a g root s k S) (hsound : TableSound hash g) (hb : ∀ h r, Dict.get? g h = some r → T r.body) :
    k = hid hash s ∧ Ready hash a F s ∧ ∃ L, SInv hash a (inputMode a) F (raws s.clauses) T g S L := by
  obtain ⟨e, hr, _⟩ := ready_of_prepare hash hF hne h hs.root
  have hC := seenAtStart_ctx hash hcl ht hf hs.gdb hr.tracks.shape.wf hT hsound hb
  have hitem : SItem hash a F (raws s.clauses) s := by
    refine ⟨hr.tracks.gitem, Below.root, hr.pos, hr.id, ?_⟩
    rcases hr.cache with h | ⟨_, h⟩
    · exact Or.inl h
    · exact Or.inr h
  exact ⟨e, hr, reached_inv hash a (inputMode a) hF hs.gdb hitem hr.tracks hC (fun _ hk => mem_seenAtStart a hk) hs.run⟩

theorem Happens.ok {T : Str → Prop} (hcl : NoClash hash T) (ht : T ['T']) (hf : T ['F']) {g g' : Gdb H}
    (hh : Happens hash T g g') (hsound : TableSound hash g) (hb : ∀ h r, Dict.get? g h = some r → T r.body) :
    TableSound hash g' ∧ (∀ h r, Dict.get? g' h = some r → T r.body) ∧ Gdb.le g g' := by
  cases hh with
  | finished ho hF hne h hT hrun =>
    rename_i a env F root rep
    have hl := h.loaded hF hne
    obtain ⟨s, hs, _⟩ := prepareRoot_ok hash a hF hl
    obtain ⟨_, hr, _⟩ := ready_of_prepare hash hF hne h hs
    rcases solveSet_cases hash ho hF hne h hs hrun with e | ⟨ps, h1, h2⟩
    · rw [e]; exact ⟨hsound, hb, Gdb.le_refl _⟩
    · have hC := seenAtStart_ctx hash hcl ht hf ho.gdb hr.tracks.shape.wf (hT s _ hs) hsound hb
      obtain ⟨l, hG, _⟩ := runMain_ginv hash a (inputMode a) g hF hr hC h1
      obtain ⟨_, _, e3⟩ := finishG_same h2
      exact ⟨hG.table.same hash e3, e3.body hG.tabS, (le_of_old hG.old).trans e3.le⟩
  | killed hg hF hne h hT hk =>
    rename_i a F root n s k ps
    obtain ⟨_, hr, _⟩ := ready_of_prepare hash hF hne h hk.root
    have hC := seenAtStart_ctx hash hcl ht hf hg hr.tracks.shape.wf hT hsound hb
    obtain ⟨ps0, h0, hp⟩ := hk.run
    obtain ⟨l, hG⟩ := killed_sound hash a (inputMode a) hF hr hC h0 hp
    exact ⟨hG.table, hG.tabS, le_of_old hG.old⟩
  | shared hF hne h hT hs =>
    obtain ⟨_, _, L, hI⟩ := sharedRun_inv hash hcl ht hf hF hne h hT hs hsound hb
    exact ⟨hI.table, hI.tabS, le_of_old hI.old⟩
  | saved =>
    rename_i stats red
    have e := same_save g stats red
    exact ⟨hsound.same hash e, e.body hb, e.le⟩

/-- **C36.** Over every history of runs on one table - runs that end, runs killed at any moment, runs of several processes
at any moment of any interleaving, on any formulas with any options - every row links the text of a formula to the digests
of its two normalised branches, and every row that was ever there is still there with the same text, children and counts
of clauses and variables (only statistics change).  Assumes that the digest does not collide on the texts met (`T`). -/
theorem C36_rows_sound_and_stable {T : Str → Prop} (hcl : NoClash hash T) (ht : T ['T']) (hf : T ['F']) {g g' : Gdb H}
    (hist : Relation.ReflTransGen (Happens hash T) g g') (hsound : TableSound hash g)
    (hb : ∀ h r, Dict.get? g h = some r → T r.body) :
    TableSound hash g' ∧ Gdb.le g g' := by
  have : TableSound hash g' ∧ (∀ h r, Dict.get? g' h = some r → T r.body) ∧ Gdb.le g g' := by
    induction hist with
    | refl => exact ⟨hsound, hb, Gdb.le_refl _⟩
    | tail _ hstep ih =>
      obtain ⟨h1, h2, h3⟩ := hstep.ok hash hcl ht hf ih.1 ih.2.1
      exact ⟨h1, h2, ih.2.2.trans h3⟩
  exact ⟨this.1, this.2.2⟩

/-- C36 for a table that starts empty. -/
theorem C36_from_empty {T : Str → Prop} (hcl : NoClash hash T) (ht : T ['T']) (hf : T ['F']) {g g' : Gdb H}
    (h1 : Relation.ReflTransGen (Happens hash T) [] g) (h2 : Relation.ReflTransGen (Happens hash T) g g') :
    TableSound hash g ∧ TableSound hash g' ∧ Gdb.le g g' := by
  have hb0 : ∀ h r, Dict.get? ([] : Gdb H) h = some r → T r.body := fun _ _ h => by simp at h
  have : ∀ g, Relation.ReflTransGen (Happens hash T) [] g → TableSound hash g ∧ (∀ h r, Dict.get? g h = some r → T r.body) := by
    intro g hg
    induction hg with
    | refl => exact ⟨tableSound_nil hash, hb0⟩
    | tail _ hstep ih =>
      obtain ⟨h1, h2, _⟩ := hstep.ok hash hcl ht hf ih.1 ih.2
      exact ⟨h1, h2⟩
  obtain ⟨k1, k2⟩ := this g h1
  obtain ⟨k3, k4⟩ := C36_rows_sound_and_stable hash hcl ht hf h2 k1 k2
  exact ⟨k1, k3, k4⟩

theorem pending_of {im : Mode} {R F0 : Cnf} {T : Str → Prop} {g0 : Gdb H} {S : Shared H} {L : List (List (SetObj H))}
    (h : SInv hash a im R F0 T g0 S L) {k : H} (hp : Pend hash S L k) : k ∈ Dict.keys S.gdb ∨ Pending S k := by
  rcases hp with hp | ⟨l, hl, hk⟩
  · exact Or.inl hp
  · right
    obtain ⟨i, hi, rfl⟩ := List.mem_iff_getElem.1 hl
    have hlen := h.procs.length_eq
    have hi' : i < S.procs.length := by omega
    obtain ⟨l', hl', hpi⟩ := forall2_get h.procs (List.getElem?_eq_getElem hi')
    rw [List.getElem?_eq_getElem hi] at hl'
    have e : L[i] = l' := by simpa using hl'
    subst e
    obtain ⟨q, hq, _⟩ := popMany_table _ _ hpi.rep
    obtain ⟨x, hx, rfl⟩ := List.mem_map.1 hk
    refine ⟨_, List.getElem_mem hi', _, q, x, ?_, hx, (hpi.items x hx).1.2.2.2.1⟩
    rw [hpi.rep.size]
    exact hq

/-- **C37, what holds.** Without the thief method (`-th`), in every state of every interleaving of the processes: the root
is in the table or in a queue, and so is every child named by a row written during the run.  When no process has anything
left to do, the table therefore has every such child.  (Missing: with `-th` a child can be lost, see the note; and that
the processes do get everything done: a process can end with an exception, as in C35.) -/
theorem C37_no_node_lost_partial (hth : a.thief = false) {T : Str → Prop} (hcl : NoClash hash T) (ht : T ['T']) (hf : T ['F'])
    {F : Cnf} (hF : Proper F) (hne : F ≠ []) {root : SetObj H} (h : Input F root) {g : Gdb H} {s : SetObj H} {k : H}
    {S : Shared H} (hT : TextsBelow T s) (hs : SharedRun hash a g root s k S) (hsound : TableSound hash g)
    (hb : ∀ h r, Dict.get? g h = some r → T r.body) :
    (k ∈ Dict.keys S.gdb ∨ Pending S k) ∧
    (∀ p c, Dict.get? g p = none → Links hash S.gdb p c → c ∈ Dict.keys S.gdb ∨ Pending S c) := by
  obtain ⟨e, hr, L, hI⟩ := sharedRun_inv hash hcl ht hf hF hne h hT hs hsound hb
  refine ⟨pending_of hash hI ?_, ?_⟩
  · rw [e, hr.tracks.shape.hid_eq hash]; exact hI.root
  · rintro p c hp ⟨r, hr', hc, h1, h2⟩
    rcases hI.linked p r hr' with h0 | ⟨x, k1, k2, hcomp, hbel, _, e1, e2, e3, _⟩
    · rw [hp] at h0; simp at h0
    · apply pending_of hash hI
      apply e3 hth
      obtain ⟨hx, lft, rgt, _, hl, hrr, rfl, rfl⟩ := hcomp
      have key : ∀ {b : Bool} {ch : SetObj H}, IsChild x b ch → c = (kidOf hash a (inputMode a) ch).dig →
          c ∈ (kidOf hash a (inputMode a) ch).edges := by
        intro b ch hch e
        have hk := (kidFor_of_child hash a (inputMode a) hF hx hch).1
        unfold Kid.edges
        match hv : (kidOf hash a (inputMode a) ch).value with
        | none => simp [e]
        | some true => exact absurd (e.trans (hk.t hv).2.1) h1
        | some false => exact absurd (e.trans (hk.f hv).2) h2
      rcases hc with hc | hc
      · exact List.mem_append_left _ (key hl (by rw [hc, e1]))
      · exact List.mem_append_right _ (key hrr (by rw [hc, e2]))

/-- **C37 with any options, the thief method included.** In every state of every interleaving of the processes, for every
child named by a row written during the run: it is the digest of a formula `G` met below the root, and a formula `G1` that is
`G` up to the names of the variables and the order of clauses and literals is in the table or in a queue.  (Missing: with
`-th` it need not be `G` itself, `C37_thief_refuted`.) -/
theorem C37_no_node_lost_up_to_renaming_partial {T : Str → Prop} (hcl : NoClash hash T) (ht : T ['T']) (hf : T ['F'])
    {F : Cnf} (hF : Proper F) (hne : F ≠ []) {root : SetObj H} (h : Input F root) {g : Gdb H} {s : SetObj H} {k : H}
    {S : Shared H} (hT : TextsBelow T s) (hs : SharedRun hash a g root s k S) (hsound : TableSound hash g)
    (hb : ∀ h r, Dict.get? g h = some r → T r.body) :
    (k ∈ Dict.keys S.gdb ∨ Pending S k) ∧
    (∀ p c, Dict.get? g p = none → Links hash S.gdb p c → ∃ G G1 : Cnf, c = hash (textOf G) ∧ Renamed G G1 ∧
      Below (raws s.clauses) G ∧ Below (raws s.clauses) G1 ∧
      (hash (textOf G1) ∈ Dict.keys S.gdb ∨ Pending S (hash (textOf G1)))) := by
  obtain ⟨e, hr, L, hI⟩ := sharedRun_inv hash hcl ht hf hF hne h hT hs hsound hb
  refine ⟨pending_of hash hI ?_, ?_⟩
  · rw [e, hr.tracks.shape.hid_eq hash]; exact hI.root
  · rintro p c hp ⟨r, hr', hc, h1, h2⟩
    rcases hI.linked p r hr' with h0 | ⟨x, k1, k2, hcomp, hbel, e0, e1, e2, _⟩
    · rw [hp] at h0; simp at h0
    · have hcr : ∀ c ∈ k1.edges ++ k2.edges, Cov hash (raws s.clauses) S L c := by
        rcases hI.covRow p r hr' with h0 | h0
        · rw [hp] at h0; simp at h0
        · exact h0 x k1 k2 hcomp hbel e0
      have hedge : c ∈ k1.edges ++ k2.edges := by
        obtain ⟨hx, lft, rgt, _, hl, hrr, rfl, rfl⟩ := hcomp
        have key : ∀ {b : Bool} {ch : SetObj H}, IsChild x b ch → c = (kidOf hash a (inputMode a) ch).dig →
            c ∈ (kidOf hash a (inputMode a) ch).edges := by
          intro b ch hch e
          have hk := (kidFor_of_child hash a (inputMode a) hF hx hch).1
          unfold Kid.edges
          match hv : (kidOf hash a (inputMode a) ch).value with
          | none => simp [e]
          | some true => exact absurd (e.trans (hk.t hv).2.1) h1
          | some false => exact absurd (e.trans (hk.f hv).2) h2
        rcases hc with hc | hc
        · exact List.mem_append_left _ (key hl (by rw [hc, e1]))
        · exact List.mem_append_right _ (key hrr (by rw [hc, e2]))
      obtain ⟨G, G1, g1, g2, g3, g4, g5⟩ := hcr c hedge
      exact ⟨G, G1, g1.symm, g4, g2, g3, pending_of hash hI g5⟩

/-- C37 at the end of a run that started with an empty table: when every queue is empty, the table has everything below
the root. -/
theorem C37_complete_when_done (hth : a.thief = false) {T : Str → Prop} (hcl : NoClash hash T) (ht : T ['T']) (hf : T ['F'])
    {F : Cnf} (hF : Proper F) (hne : F ≠ []) {root : SetObj H} (h : Input F root) {s : SetObj H} {k : H}
    {S : Shared H} (hT : TextsBelow T s) (hs : SharedRun hash a [] root s k S) (hdone : ∀ c, ¬ Pending S c) :
    CompleteBelow hash S.gdb k := by
  obtain ⟨h1, h2⟩ := C37_no_node_lost_partial hash hth hcl ht hf hF hne h hT hs (tableSound_nil hash)
    (fun _ _ h => by simp at h)
  intro c hc
  induction hc with
  | refl => exact h1.resolve_right (hdone _)
  | tail _ hl _ => exact (h2 _ _ (by simp) hl).resolve_right (hdone _)

/-! ### C44: the verdict of the processes together -/

theorem SInv.unsat {im : Mode} {R F0 : Cnf} (hR : Proper R) {T : Str → Prop} {seen : List H} (hC : Ctx hash a F0 T [] seen)
    {S : Shared H} {L : List (List (SetObj H))} (h : SInv hash a im R F0 T [] S L)
    (hns : ∀ ps ∈ S.procs, ps.isSat = false) (hL : ∀ l ∈ L, l = []) :
    ∀ n G, size G ≤ n → Below F0 G → Cov hash F0 S L (hash (textOf G)) → ¬ Satisfiable G := by
  intro n
  induction n with
  | zero =>
    intro G hn hb _ _
    have := size_subF_lt (hb.wf hC.wf) true
    omega
  | succ n ih =>
    intro G0 hn0 hb0 ⟨G0', G, g1, g2, hb, g4, hk⟩ hs0
    have hw := hb.wf hC.wf
    have hw0 := hb0.wf hC.wf
    have hw0' := g2.wf hC.wf
    have hG : G0' = G0 := textOf_inj hw0'.1 hw0.1 (fun c hc => (hw0'.2 c hc).1) (fun c hc => (hw0.2 c hc).1)
      (hC.clash _ _ (hC.below _ g2) (hC.below _ hb0) g1)
    subst hG
    have hn : size G ≤ n + 1 := by rw [← g4.size]; exact hn0
    have hs : Satisfiable G := (g4.sat fun c hc => (hw.2 c hc).2.1).1 hs0
    rcases hk with hk | ⟨l, hl, hk⟩
    · obtain ⟨r, hr⟩ := Dict.exists_get?_of_mem hk
      rcases h.linked _ r hr with h0 | ⟨x, k1, k2, hcomp, hbel, he, e1, e2, _, e4⟩
      · simp at h0
      · have e3 : ∀ c ∈ k1.edges ++ k2.edges, Cov hash F0 S L c := by
          rcases h.covRow _ r hr with h0 | h0
          · simp at h0
          · exact h0 x k1 k2 hcomp hbel he
        have hw' := hbel.wf hC.wf
        have hxs := hcomp.1.shape
        rw [hxs.hid_eq hash] at he
        have e : raws x.clauses = G := textOf_inj hw'.1 hw.1 (fun c hc => (hw'.2 c hc).1) (fun c hc => (hw.2 c hc).1)
          (hC.clash _ _ (hC.below _ hbel) (hC.below _ hb) he)
        subst e
        obtain ⟨hx, lft, rgt, _, hl, hrr, rfl, rfl⟩ := hcomp
        have main : ∀ (b : Bool) (ch : SetObj H), IsChild x b ch → [] ∉ subF (raws x.clauses) b → Satisfiable (subF (raws x.clauses) b) →
            ((kidOf hash a im ch).value = some true → ∃ q ∈ S.procs, q.isSat = true) →
            (∀ c ∈ (kidOf hash a im ch).edges, Cov hash F0 S L c) → False := by
          intro b ch hch h1 h2 ht hp
          have hkf := (kidFor_of_child hash a im hR hx hch).1
          match hv : (kidOf hash a im ch).value with
          | some true =>
            obtain ⟨q, hq, hqs⟩ := ht hv
            rw [hns q hq] at hqs
            simp at hqs
          | some false => exact h1 (hkf.f hv).1
          | none =>
            obtain ⟨h3, h4, ⟨mode, hN⟩, h5, h6, h7, _⟩ := hkf.n hv
            have hsz := size_subF_lt hw b
            refine ih _ (by rw [hN.size]; exact Nat.le_of_lt_succ (Nat.lt_of_lt_of_le hsz hn)) (Below.child hb h3 h4 hN) ?_
              ((hN.sat (sub_zero fun c hc => (hw.2 c hc).2.1)).2 h2)
            rw [← h7.1.hid_eq hash, h5]
            apply hp
            unfold Kid.edges
            rw [hv]; simp
        obtain ⟨b, h1, h2⟩ := sub_sat hs
        cases b with
        | true => exact main true lft hl h1 h2 (fun ht => e4 (Or.inl ht)) (fun c hc => e3 c (List.mem_append_left _ hc))
        | false => exact main false rgt hrr h1 h2 (fun ht => e4 (Or.inr ht)) (fun c hc => e3 c (List.mem_append_right _ hc))
    · rw [hL l hl] at hk
      simp at hk

/-- **C44, soundness.** In every state of every interleaving of the processes of a run, on any table with right rows: a
process says "satisfiable" only if the formula is, and a solution it holds is empty or makes every clause true. -/
theorem C44_never_wrong {T : Str → Prop} (hcl : NoClash hash T) (ht : T ['T']) (hf : T ['F'])
    {F : Cnf} (hF : Proper F) (hne : F ≠ []) {root : SetObj H} (h : Input F root) {g : Gdb H} {s : SetObj H} {k : H}
    {S : Shared H} (hT : TextsBelow T s) (hs : SharedRun hash a g root s k S) (hsound : TableSound hash g)
    (hb : ∀ h r, Dict.get? g h = some r → T r.body) {ps : PS H} (hp : ps ∈ S.procs) :
    (ps.isSat = true → Satisfiable F) ∧ ∀ d, ps.solution = some d → d = [] ∨ MakesTrue d F := by
  obtain ⟨_, hr, L, hI⟩ := sharedRun_inv hash hcl ht hf hF hne h hT hs hsound hb
  have hsat := (ready_of_prepare hash hF hne h hs.root).2.2
  have hfl := hI.flags ps hp
  exact ⟨fun hs => hsat.1 (hfl.sat hs), fun d hd => (hfl.sol d hd).imp id And.left⟩

/-- **C44, the verdict.** On a table that starts empty, in every state of every interleaving in
which no process has anything left to do (its loop has ended): some process says "satisfiable" exactly if the formula is. -/
theorem C44_verdict {T : Str → Prop} (hcl : NoClash hash T) (ht : T ['T']) (hf : T ['F'])
    {F : Cnf} (hF : Proper F) (hne : F ≠ []) {root : SetObj H} (h : Input F root) {s : SetObj H} {k : H}
    {S : Shared H} (hT : TextsBelow T s) (hs : SharedRun hash a [] root s k S) (hdone : ∀ ps ∈ S.procs, keepGoing a ps = false) :
    (∃ ps ∈ S.procs, ps.isSat = true) ↔ Satisfiable F := by
  have hb : ∀ h r, Dict.get? ([] : Gdb H) h = some r → T r.body := fun _ _ h => by simp at h
  obtain ⟨_, hr, hsat⟩ := ready_of_prepare hash hF hne h hs.root
  obtain ⟨_, _, L, hI⟩ := sharedRun_inv hash hcl ht hf hF hne h hT hs (tableSound_nil hash) hb
  have hC := seenAtStart_ctx hash hcl ht hf hs.gdb hr.tracks.shape.wf hT (tableSound_nil hash) hb
  constructor
  · rintro ⟨ps, hp, hps⟩
    exact hsat.1 ((hI.flags ps hp).sat hps)
  · intro hF'
    by_contra hno
    have hns : ∀ ps ∈ S.procs, ps.isSat = false := by
      intro ps hp
      by_contra hc
      exact hno ⟨ps, hp, by simpa using hc⟩
    have hL : ∀ l ∈ L, l = [] := by
      intro l hl
      obtain ⟨ps, hp, hpi⟩ := forall2_mem_right hI.procs hl
      have hsol : ps.solution = none := by
        have := (hI.flags ps hp).both
        rw [hns ps hp] at this
        simpa using this
      have hk := hdone ps hp
      unfold keepGoing Queue.isEmpty at hk
      rw [hpi.rep.size, hsol] at hk
      match l with
      | [] => rfl
      | x :: l => simp [truthy] at hk
    exact hI.unsat hash hF hC hns hL _ _ (Nat.le_refl _) Below.root
      ⟨_, _, rfl, Below.root, Below.root, Renamed.refl _, hI.root⟩ (hsat.2 hF')

/-- **C44, the solution.** On a table that starts empty, without `-gnm`, in every state of every interleaving: a process
that says "satisfiable" holds a solution that makes every clause of the formula true. -/
theorem C44_solution (hnm : a.gdbNoMem = false) {T : Str → Prop} (hcl : NoClash hash T) (ht : T ['T']) (hf : T ['F'])
    {F : Cnf} (hF : Proper F) (hne : F ≠ []) {root : SetObj H} (h : Input F root) {s : SetObj H} {k : H}
    {S : Shared H} (hT : TextsBelow T s) (hs : SharedRun hash a [] root s k S) {ps : PS H} (hp : ps ∈ S.procs)
    (hps : ps.isSat = true) : ∃ d, ps.solution = some d ∧ MakesTrue d F := by
  have hb : ∀ h r, Dict.get? ([] : Gdb H) h = some r → T r.body := fun _ _ h => by simp at h
  obtain ⟨_, hr, L, hI⟩ := sharedRun_inv hash hcl ht hf hF hne h hT hs (tableSound_nil hash) hb
  have hfl := hI.flags ps hp
  obtain ⟨d, hd⟩ := Option.isSome_iff_exists.1 (hfl.both.1 hps)
  refine ⟨d, hd, ?_⟩
  rcases hfl.sol d hd with rfl | h
  · exact absurd hd (hI.full hnm rfl ps hp)
  · exact h.1

/-- **C44, termination.** All the processes of a run together take at most `3 ^ n` passes, where `n` is the number of
literals of the normalised root, whatever the interleaving and the table. -/
theorem C44_terminates {T : Str → Prop} (hcl : NoClash hash T) (ht : T ['T']) (hf : T ['F'])
    {F : Cnf} (hF : Proper F) (hne : F ≠ []) {root : SetObj H} (h : Input F root) {g : Gdb H} {s : SetObj H} {k : H}
    (hT : TextsBelow T s) (hg : a.useGlobalDb = true) (hroot : prepareRoot hash a root = pure (s, k))
    (hsound : TableSound hash g) (hb : ∀ h r, Dict.get? g h = some r → T r.body) {n : Nat} {S : Shared H}
    (hs : Shared.ReachedIn hash a (inputMode a) (seenAtStart a g s.clauses.length) g s n S) :
    n ≤ 3 ^ size (raws s.clauses) := by
  obtain ⟨e, hr, _⟩ := ready_of_prepare hash hF hne h hroot
  have hC := seenAtStart_ctx hash hcl ht hf hg hr.tracks.shape.wf hT hsound hb
  have hitem : SItem hash a F (raws s.clauses) s := by
    refine ⟨hr.tracks.gitem, Below.root, hr.pos, hr.id, ?_⟩
    rcases hr.cache with h | ⟨_, h⟩
    · exact Or.inl h
    · exact Or.inr h
  obtain ⟨L, _, hw⟩ := reachedIn_inv hash a (inputMode a) hF hg hitem hr.tracks hC (fun _ hk => mem_seenAtStart a hk) hs
  omega

theorem seenAtStart_nil (n : Nat) : seenAtStart a ([] : Gdb H) n = [] := by
  apply List.eq_nil_iff_forall_not_mem.2
  intro k hk
  have := mem_seenAtStart a hk
  simp [Dict.keys] at this

/-- **C44, progress.** On a table that starts empty, without `-gnm`, a process whose loop goes on never raises: its
next pass succeeds, whatever it has read of the table since the start. -/
theorem C44_progress (hnm : a.gdbNoMem = false) {T : Str → Prop} (hcl : NoClash hash T) (ht : T ['T']) (hf : T ['F'])
    {F : Cnf} (hF : Proper F) (hne : F ≠ []) {root : SetObj H} (h : Input F root) {s : SetObj H} {k : H}
    {S : Shared H} (hT : TextsBelow T s) (hs : SharedRun hash a [] root s k S) {i : Nat} {ps : PS H} (hi : S.procs[i]? = some ps)
    (hgo : keepGoing a ps = true) (gr gq : Gdb H) :
    ∃ ps', expandAt hash a (inputMode a) (seenAtStart a ([] : Gdb H) s.clauses.length) gr gq S.gdb ps = pure ps' := by
  have hb : ∀ h r, Dict.get? ([] : Gdb H) h = some r → T r.body := fun _ _ h => by simp at h
  obtain ⟨_, hr, L, hI⟩ := sharedRun_inv hash hcl ht hf hF hne h hT hs (tableSound_nil hash) hb
  obtain ⟨l, hL, hpi⟩ := forall2_get hI.procs hi
  match l, hpi with
  | [], hpi =>
    unfold keepGoing Queue.isEmpty at hgo
    rw [hpi.rep.size] at hgo
    simp at hgo
  | x :: l, hpi =>
    obtain ⟨⟨hx1, hx2, hx3, hx4, hx5⟩, hx6⟩ := hpi.items x (by simp)
    have htr := hI.tracked hnm rfl _ (List.mem_of_getElem? hL) x (by simp)
    obtain ⟨ps', _, _, _, _, _, _, _, _, _, he, _⟩ := expandAt_ok hash a (inputMode a)
      (seenAtStart a ([] : Gdb H) s.clauses.length) gr gq S.gdb hF hpi.rep htr (fun hd => hx3 (by rw [← hpi.db]; exact hd)) hx4 hx6
      (fun hd => hpi.rows (by rw [← hpi.db]; exact hd)) hx5 (by
        intro _ hin
        rw [seenAtStart_nil] at hin
        simp [isSetInGdb, hnm] at hin)
    exact ⟨ps', he⟩

/-! ### non-vacuity: two processes that meet the same node -/

def exShArgs : Args := { mode := .flo, useGlobalDb := true, threads := 2 }

/-- The root is expanded, its two children are handed to two processes, which then take turns.  The last pass of the second
one finds its node already written by the first one. -/
def exShRun : M (SetObj Str × Str × Shared Str) := do
  let (s, k) ← prepareRootF (fun s => s) exShArgs 50 (mkSet exKilled)
  let ps ← initPS (fun s => s) exShArgs [] 1 s
  let S ← actsF (fun s => s) exShArgs .flo 50 [] [] [.run 0, .spawn 0, .run 1, .run 2, .run 1, .stale 2, .run 1, .run 2]
    { gdb := [], procs := [ps] }
  pure (s, k, S)

set_option maxRecDepth 100000 in
theorem exShRun_ok : (match exShRun with
    | some (.ok (_, _, S)) => (S.procs.all fun p => p.queue.size == 0) && S.procs.length == 3 && S.gdb.length == 6
    | _ => false) = true := by decide

/-- The hypotheses of `C37_complete_when_done` are met by a run in which seven passes of three processes write six rows. -/
example : ∃ s k S, SharedRun (fun s : Str => s) exShArgs [] (mkSet exKilled) s k S ∧ S.procs.length = 3 ∧ S.gdb.length = 6 ∧
    CompleteBelow (fun s : Str => s) S.gdb k ∧ ∃ ps ∈ S.procs, ps.isSat = true := by
  have hF : Proper exKilled := by unfold exKilled Proper; decide
  have hI := input_mkSet (H := Str) hF (by simp [exKilled])
  have hok := exShRun_ok
  rcases M.cases exShRun with e | ⟨er, e⟩ | ⟨⟨s, k, S⟩, e⟩
  · rw [e] at hok; exact absurd hok (by decide)
  · rw [e] at hok; exact absurd hok (by intro h; cases h)
  · rw [e] at hok
    have hok : ((S.procs.all fun p => p.queue.size == 0) && S.procs.length == 3 && S.gdb.length == 6) = true := hok
    simp only [Bool.and_eq_true, List.all_eq_true, beq_iff_eq] at hok
    unfold exShRun at e
    obtain ⟨⟨s', k'⟩, h1, e⟩ := M.bind_eq_pure.1 e
    obtain ⟨ps0, h2, e⟩ := M.bind_eq_pure.1 e
    obtain ⟨S', h3, e⟩ := M.bind_eq_pure.1 e
    have e := (M.pure_inj _ _).1 e
    cases e
    have hs : SharedRun (fun s : Str => s) exShArgs [] (mkSet exKilled) s k S :=
      ⟨rfl, (prepareRootF_le (fun s : Str => s) exShArgs 50 (mkSet exKilled)).pure h1,
        actsF_spec (fun s : Str => s) exShArgs .flo (.start ps0 h2) h3⟩
    have hdone : ∀ ps ∈ S.procs, keepGoing exShArgs ps = false := by
      intro ps hp
      have := hok.1.1 ps hp
      unfold keepGoing Queue.isEmpty
      rw [this]; rfl
    have hsatF : Satisfiable exKilled := ⟨fun _ => true, by unfold Sat exKilled; decide⟩
    refine ⟨s, k, S, hs, hok.1.2, hok.2, ?_, (C44_verdict (fun s : Str => s) (T := fun _ => True)
      (fun _ _ _ _ e => e) trivial trivial hF (by simp [exKilled]) hI (fun _ _ => trivial) hs hdone).2 hsatF⟩
    refine C37_complete_when_done (fun s : Str => s) rfl (T := fun _ => True)
      (fun _ _ _ _ e => e) trivial trivial hF (by simp [exKilled]) hI (fun _ _ => trivial) hs ?_
    rintro c ⟨p, hp, nodes, q, x, hpop, hx, _⟩
    rw [hok.1.1 p hp] at hpop
    have e := (M.pure_inj _ _).1 hpop
    simp only [Prod.mk.injEq] at e
    rw [← e.1] at hx
    simp at hx

/-! ### C40: the stored number of variables -/

/-- **C40, what holds.** Over every history of runs (as in C36), the stored number of variables of a row is never more than
the number of variables of its body, and is right exactly when no variable of the body is above the last one written.
(Missing: it can be less, `C40_refuted`.) -/
theorem C40_num_of_vars_partial {T : Str → Prop} (hcl : NoClash hash T) (ht : T ['T']) (hf : T ['F']) {g : Gdb H}
    (hist : Relation.ReflTransGen (Happens hash T) [] g) {h : H} {r : Row H} (hr : Dict.get? g h = some r) :
    ∃ G : Cnf, r.body = textOf G ∧ r.numVars ≤ (varsOf G).length ∧
      (r.numVars = (varsOf G).length ↔ ∀ v ∈ varsOf G, v ≤ lastVar G) := by
  obtain ⟨_, hs, _⟩ := C36_from_empty hash hcl ht hf Relation.ReflTransGen.refl hist
  obtain ⟨mode, G, x, xs, cs, hG, hwf, hb, _, _, _, _, hn, hv⟩ := hs h r hr
  have hlast : lastVar G ∈ varsOf G := by
    unfold lastVar
    have hne : G ≠ [] := by rw [hG]; simp
    rw [List.getLast?_eq_some_getLast hne]
    have hc := hwf _ (List.getLast_mem hne)
    simp only
    rw [List.getLast?_eq_some_getLast hc.1]
    exact mem_varsOf.2 ⟨_, List.getLast_mem hne, _, List.getLast_mem hc.1, rfl⟩
  refine ⟨G, hb, ?_, ?_⟩
  · rw [hn]; exact ((hv _).1 hlast).2
  · rw [hn]
    constructor
    · intro e v hv'
      rw [e]; exact ((hv v).1 hv').2
    · intro hall
      apply Nat.le_antisymm ((hv _).1 hlast).2
      have h1 := ((hv _).1 hlast).1
      have hpos : 1 ≤ (varsOf G).length := Nat.le_trans h1 ((hv _).1 hlast).2
      exact hall _ ((hv _).2 ⟨hpos, Nat.le_refl _⟩)

def exVars : Cnf := [[1, 2, 3], [2, -1]]

def exVarsRun : M (SetObj Str × Str × PS Str) := do
  let (s, k) ← prepareRootF (fun s => s) exGdbArgs 50 (mkSet exVars)
  let ps0 ← initPS (fun s => s) exGdbArgs [] 1 s
  let ps ← passesF (fun s => s) exGdbArgs .flo [] 50 1 ps0
  pure (s, k, ps)

set_option maxRecDepth 100000 in
theorem exVarsRun_ok : (match exVarsRun with
    | some (.ok (_, _, ps)) => decide ((ps.gdb.map fun p => (p.1, p.2.body, p.2.numVars)) =
        [(textOf [[1, 2, 3], [-1, 2]], textOf [[1, 2, 3], [-1, 2]], 2)])
    | _ => false) = true := by decide

/-- **C40 is false.** The row written for `[[1, 2, 3], [-1, 2]]`, a formula with three variables, says two. -/
theorem C40_refuted : ∃ (s : SetObj Str) (k : Str) (ps : PS Str), KilledAt (fun s : Str => s) exGdbArgs [] (mkSet exVars) 1 s k ps ∧
    ∃ h r, Dict.get? ps.gdb h = some r ∧ r.body = textOf [[1, 2, 3], [-1, 2]] ∧
      r.numVars = 2 ∧ (varsOf [[1, 2, 3], [-1, 2]]).length = 3 := by
  have hok := exVarsRun_ok
  rcases M.cases exVarsRun with e | ⟨er, e⟩ | ⟨⟨s, k, ps⟩, e⟩
  · rw [e] at hok; exact absurd hok (by decide)
  · rw [e] at hok; exact absurd hok (by intro h; cases h)
  · rw [e] at hok
    have hok : decide ((ps.gdb.map fun p => (p.1, p.2.body, p.2.numVars)) =
        [(textOf [[1, 2, 3], [-1, 2]], textOf [[1, 2, 3], [-1, 2]], 2)]) = true := hok
    rw [decide_eq_true_eq] at hok
    unfold exVarsRun at e
    obtain ⟨⟨s', k'⟩, h1, e⟩ := M.bind_eq_pure.1 e
    obtain ⟨ps0, h2, e⟩ := M.bind_eq_pure.1 e
    obtain ⟨ps', h3, e⟩ := M.bind_eq_pure.1 e
    have e := (M.pure_inj _ _).1 e
    cases e
    refine ⟨s, k, ps, ⟨(prepareRootF_le (fun s : Str => s) exGdbArgs 50 (mkSet exVars)).pure h1, ps0, h2,
      passesF_spec (fun s : Str => s) h3⟩, ?_⟩
    match hg : ps.gdb, hok with
    | [], hok => exact absurd hok (by simp)
    | _ :: _ :: _, hok => exact absurd hok (by simp)
    | [(h, r)], hok =>
      simp only [List.map_cons, List.map_nil, List.cons.injEq, Prod.mk.injEq, and_true] at hok
      exact ⟨h, r, by simp, hok.2.1, hok.2.2, by decide⟩

end NDP
