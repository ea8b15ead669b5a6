import Verif.Proofs.Faults
import Verif.Props.Shared
/-
  C76: what a `-gdb` run says when database statements fail.  `Model/Faults.lean` has the model: which statements of a
  pass fail is arbitrary (`PassFaults`), and processes may die.
-/
namespace NDP
open Spec SetObj
variable {H : Type} [DecidableEq H] (hash : Str → H) {a : Args}

/-- Everything known of a state of a run with failing statements. -/
theorem faulty_inv {T : Str → Prop} (hcl : NoClash hash T) (ht : T ['T']) (hf : T ['F'])
    {F : Cnf} (hF : Proper F) (hne : F ≠ []) {root : SetObj H} (h : Input F root) {g : Gdb H} {s : SetObj H} {k : H}
    (hroot : prepareRoot hash a root = pure (s, k)) (hT : TextsBelow T s) (hsound : TableSound hash g)
    (hb : ∀ h r, Dict.get? g h = some r → T r.body) {seen : List H} {n : Nat} {S : Shared H}
    (hs : Faulty hash a (inputMode a) seen g s n S) :
    ∃ L, FaultInv hash a F (raws s.clauses) T g S L ∧ n + work L ≤ 3 ^ size (raws s.clauses) := by
  obtain ⟨_, hr, _⟩ := ready_of_prepare hash hF hne h hroot
  have hitem : SItem hash a F (raws s.clauses) s := by
    refine ⟨hr.tracks.gitem, Below.root, hr.pos, hr.id, ?_⟩
    rcases hr.cache with h | ⟨_, h⟩
    · exact Or.inl h
    · exact Or.inr h
  exact hs.inv hash a (inputMode a) hF ⟨hr.tracks.shape.wf, hcl, ht, hf, hT⟩ hitem hsound hb

/-- **C76, soundness.** Whatever statements fail, whatever processes die, in every interleaving, on any table with right rows and
whatever digests were loaded at the start: a process says "satisfiable" only if the formula is, and a solution it holds is
empty or makes every clause true. -/
theorem C76_never_wrongly_satisfiable {T : Str → Prop} (hcl : NoClash hash T) (ht : T ['T']) (hf : T ['F'])
    {F : Cnf} (hF : Proper F) (hne : F ≠ []) {root : SetObj H} (h : Input F root) {g : Gdb H} {s : SetObj H} {k : H}
    (hroot : prepareRoot hash a root = pure (s, k)) (hT : TextsBelow T s) (hsound : TableSound hash g)
    (hb : ∀ h r, Dict.get? g h = some r → T r.body) {seen : List H} {n : Nat} {S : Shared H}
    (hs : Faulty hash a (inputMode a) seen g s n S) {ps : PS H} (hp : ps ∈ S.procs) :
    (ps.isSat = true → Satisfiable F) ∧ (ps.isSat = true ↔ ps.solution.isSome) ∧
      ∀ d, ps.solution = some d → d = [] ∨ MakesTrue d F := by
  obtain ⟨L, hI, _⟩ := faulty_inv hash hcl ht hf hF hne h hroot hT hsound hb hs
  have hsat := (ready_of_prepare hash hF hne h hroot).2.2
  have hfl := hI.flags ps hp
  exact ⟨fun hs => hsat.1 (hfl.sat hs), hfl.both, fun d hd => (hfl.sol d hd).imp id And.left⟩

/-- **C76, the table.** Whatever fails, every row left in the table is right and every earlier row is still there, unchanged. -/
theorem C76_table_stays_right {T : Str → Prop} (hcl : NoClash hash T) (ht : T ['T']) (hf : T ['F'])
    {F : Cnf} (hF : Proper F) (hne : F ≠ []) {root : SetObj H} (h : Input F root) {g : Gdb H} {s : SetObj H} {k : H}
    (hroot : prepareRoot hash a root = pure (s, k)) (hT : TextsBelow T s) (hsound : TableSound hash g)
    (hb : ∀ h r, Dict.get? g h = some r → T r.body) {seen : List H} {n : Nat} {S : Shared H}
    (hs : Faulty hash a (inputMode a) seen g s n S) :
    TableSound hash S.gdb ∧ ∀ k r, Dict.get? g k = some r → Dict.get? S.gdb k = some r := by
  obtain ⟨L, hI, _⟩ := faulty_inv hash hcl ht hf hF hne h hroot hT hsound hb hs
  exact ⟨hI.table, hI.old⟩

/-- **C76, termination.** Whatever fails, all the processes together take at most `3 ^ n` passes, `n` the number of literals. -/
theorem C76_terminates {T : Str → Prop} (hcl : NoClash hash T) (ht : T ['T']) (hf : T ['F'])
    {F : Cnf} (hF : Proper F) (hne : F ≠ []) {root : SetObj H} (h : Input F root) {g : Gdb H} {s : SetObj H} {k : H}
    (hroot : prepareRoot hash a root = pure (s, k)) (hT : TextsBelow T s) (hsound : TableSound hash g)
    (hb : ∀ h r, Dict.get? g h = some r → T r.body) {seen : List H} {n : Nat} {S : Shared H}
    (hs : Faulty hash a (inputMode a) seen g s n S) : n ≤ 3 ^ size (raws s.clauses) := by
  obtain ⟨L, _, hw⟩ := faulty_inv hash hcl ht hf hF hne h hroot hT hsound hb hs
  omega

theorem initPS_gdb {g : Gdb H} {s : SetObj H} {u : Nat} {ps0 : PS H} (h0 : initPS hash a g u s = pure ps0) : ps0.gdb = g := by
  unfold initPS at h0
  obtain ⟨⟨_, c⟩, _, h0⟩ := M.bind_eq_pure.1 h0
  obtain ⟨_, _, h0⟩ := M.bind_eq_pure.1 h0
  split at h0
  · exact absurd h0 (M.raise_ne_pure _ _)
  · rw [← (M.pure_inj _ _).1 h0]

/-- A lone process with failing statements is a run of this kind. -/
theorem FaultyPasses.faulty {g : Gdb H} {s : SetObj H} {seen : List H} {im : Mode} {ps0 ps : PS H} {fs : List PassFaults}
    (h0 : initPS hash a g 1 s = pure ps0) (hp : FaultyPasses hash a im seen fs ps0 ps) :
    Faulty hash a im seen g s fs.length { gdb := ps.gdb, procs := [ps] } := by
  induction hp with
  | refl p =>
    have : p.gdb = g := initPS_gdb hash h0
    rw [this]
    exact .start p h0
  | @step fs f p ps1 ps2 hp hgo he ih =>
    rw [List.length_append, List.length_singleton]
    exact Faulty.run (ih h0) 0 ps1 ps2 f ps1.gdb ps1.gdb rfl (Gdb.le_refl _) (Gdb.le_refl _) hgo he

/-! ### a failing INSERT -/

theorem mem_sameClauses {F G : Cnf} (h : SameClauses F G) {c : List Int} (hc : c ∈ G) : ∃ d ∈ F, ∀ l, l ∈ d ↔ l ∈ c := by
  have hm : (Multiset.ofList c) ∈ unordered G := by
    unfold unordered
    exact List.mem_map.2 ⟨c, hc, rfl⟩
  rw [← h] at hm
  unfold unordered at hm
  obtain ⟨d, hd, e⟩ := List.mem_map.1 (Multiset.mem_coe.1 hm)
  refine ⟨d, hd, fun l => ?_⟩
  have := Multiset.coe_eq_coe.1 e
  exact this.mem_iff

/-- With a failing INSERT a pass goes through if it does for a process that finds the row already there. -/
theorem expandX_of_at {f : PassFaults} (hf : f.insert = true) {im : Mode} {seen : List H} {gr gq gw gw' : Gdb H} {ps p' : PS H}
    {x : SetObj H} {l : List (SetObj H)} (hrep : Rep ps.queue (x :: l)) {R : Cnf} (hx : GItem R x)
    (hc : x.computedHash = some (hid hash x) ∨ x.computedHash = none)
    (hw : Dict.contains gw' (hid hash x) = true)
    (h : expandAt hash a im seen (readTab a f gr) (queryTab a f gq) gw' ps = pure p') :
    ∃ p, expandX hash a f im seen gr gq gw ps = pure p := by
  obtain ⟨q0, hpop, _⟩ := hrep.pop
  unfold expandAt at h
  rw [hpop] at h
  simp only [M.pure_bind] at h
  obtain ⟨⟨s1, s2, pulled, cnf⟩, hg, h⟩ := M.bind_eq_pure.1 h
  have hcnf : cnf = x ∨ cnf = { x with computedHash := some (hid hash x) } := by
    unfold getChildren at hg
    split at hg
    · rw [getHash_shape hash hx.1 hc] at hg
      simp only [M.pure_bind] at hg
      split at hg
      · exact Or.inr (congrArg (fun t => t.2.2.2) ((M.pure_inj _ _).1 hg)).symm
      · obtain ⟨o, _, hg⟩ := M.bind_eq_pure.1 hg
        match o, hg with
        | none, hg => exact absurd hg (M.raise_ne_pure _ _)
        | some (_, _), hg => exact Or.inr (congrArg (fun t => t.2.2.2) ((M.pure_inj _ _).1 hg)).symm
    · obtain ⟨o, _, hg⟩ := M.bind_eq_pure.1 hg
      match o, hg with
      | none, hg => exact absurd hg (M.raise_ne_pure _ _)
      | some (_, _), hg => exact Or.inl (congrArg (fun t => t.2.2.2) ((M.pure_inj _ _).1 hg)).symm
  simp only at h
  obtain ⟨⟨ps1, s1'⟩, hp1, h⟩ := M.bind_eq_pure.1 h
  obtain ⟨⟨ps2, s2'⟩, hp2, h⟩ := M.bind_eq_pure.1 h
  obtain ⟨⟨h1, s1''⟩, hh1, h⟩ := M.bind_eq_pure.1 h
  obtain ⟨⟨h2, s2''⟩, hh2, h⟩ := M.bind_eq_pure.1 h
  have hgh : cnf.getHash hash false = pure (hid hash x, { x with computedHash := some (hid hash x) }) := by
    rcases hcnf with rfl | rfl
    · exact getHash_shape hash hx.1 hc
    · unfold getHash; rfl
  have hb : ({ x with computedHash := some (hid hash x) } : SetObj H).toStr = pure (bodyStr x.clauses) :=
    toStr_ok hx.1.sto.value hx.1.sto.ne
  obtain ⟨nv, hnv⟩ := numOfVars_shape hx.1.sto
  have hn2 : numOfVars ({ x with computedHash := some (hid hash x) } : SetObj H) = pure nv := by rw [← hnv]; rfl
  have hsx : saveX hash a f seen gq gw cnf h1 h2 = pure (if wants a seen (queryTab a f gq) (hid hash x) = true then
      (DbStatus.uniqueViolation, if f.stored then (gw.insertRow (hid hash x) (mkRow x h1 h2 nv)).2 else gw)
      else (.success, gw)) := by
    unfold saveX
    rw [hgh]
    simp only [M.pure_bind, hn2, hb, isSetInGdbX_eq]
    unfold wants queryTab insertRowX
    rw [hf]
    simp only [if_true]
    generalize (a.useGlobalDb && !isSetInGdb a seen (if (a.gdbNoMem && f.existsWrite) = true then [] else gq) (hid hash x)) = b
    cases b <;> rfl
  have hsa : saveAt hash a seen (queryTab a f gq) gw' cnf h1 h2 = pure (if wants a seen (queryTab a f gq) (hid hash x) = true then
      gw'.insertRow (hid hash x) (mkRow x h1 h2 nv) else (.success, gw')) := by
    unfold saveAt
    rw [hgh]
    simp only [M.pure_bind, hn2, hb]
    unfold wants
    split <;> rfl
  rw [hsa, M.pure_bind] at h
  unfold expandX
  rw [hpop]
  simp only [M.pure_bind, getChildrenX_eq, hg, hp1, hp2, hh1, hh2, hsx]
  cases hwt : wants a seen (queryTab a f gq) (hid hash x) with
  | true =>
    simp only [if_true, reduceCtorEq, if_false]
    exact ⟨_, rfl⟩
  | false =>
    rw [hwt] at h
    simp only [if_true, Bool.false_eq_true, if_false] at h ⊢
    obtain ⟨q1, hq1, h⟩ := M.bind_eq_pure.1 h
    obtain ⟨q2, hq2, h⟩ := M.bind_eq_pure.1 h
    simp only [hq1, hq2, M.pure_bind]
    exact ⟨_, rfl⟩

/-- **C76 is false for "not satisfiable".** For *every* formula without a literal common to all its clauses, on every table
without a row for it: if the INSERT of the first pass fails (for any reason, the row stored or not), the run ends after this pass
and reports "not satisfiable", with no solution. -/
theorem C76_failed_insert_refuted (hg : a.useGlobalDb = true) {F : Cnf} (hF : Proper F) (hne : F ≠ []) {root : SetObj H}
    (h : Input F root) (hlit : ∀ l : Int, ∃ c ∈ F, l ∉ c) {g : Gdb H} {seen : List H} {f : PassFaults} (hf : f.insert = true)
    (hnew : ∀ s k, prepareRoot hash a root = pure (s, k) → k ∉ Dict.keys g ∧ k ∉ seen) :
    ∃ s k ps0 ps, prepareRoot hash a root = pure (s, k) ∧ initPS hash a g 1 s = pure ps0 ∧
      FaultyPasses hash a (inputMode a) seen [f] ps0 ps ∧ keepGoing a ps = false ∧ ps.isSat = false ∧ ps.solution = none := by
  obtain ⟨s, hs, hr, _, _, hsame⟩ := prepareRoot_ok hash a hF (h.loaded hF hne)
  obtain ⟨hk1, hk2⟩ := hnew s _ hs
  obtain ⟨ps0, h0, hi, _, hns, hnc⟩ := initPS_ok hash a (inputMode a) g 1 hr
  have hsol : ps0.solution = none := by
    have := (initPS_flags (R := F) (F0 := F) hash a h0).both
    rw [hns] at this
    simpa using this
  have hitem : SItem hash a F (raws s.clauses) s := by
    refine ⟨hr.tracks.gitem, Below.root, hr.pos, hr.id, ?_⟩
    rcases hr.cache with h | ⟨_, h⟩
    · exact Or.inl h
    · exact Or.inr h
  obtain ⟨y, hpi, ehid, _, eraw, htr⟩ := ProcInv.init hash a hitem h0
  have hgdb : ps0.gdb = g := initPS_gdb hash h0
  have hyt := htr hr.tracks
  obtain ⟨⟨hxi, hxb, hxp, hxid, hxc⟩, hxn⟩ := hpi.items y (by simp)
  -- no branch of the root is T
  have hnoT : ∀ b, sub y b ≠ [] := by
    intro b hb
    unfold sub at hb
    rw [eraw] at hb
    have hmt := residual_nil_iff.1 hb
    generalize pivotOf (raws s.clauses) = p at hmt
    -- the literal that makes every clause true
    obtain ⟨l0, hl0⟩ : ∃ l0 : Int, l0 = if b then (p : Int) else -(p : Int) := ⟨_, rfl⟩
    have hall : ∀ c ∈ raws s.clauses, l0 ∈ c := by
      intro c hc
      obtain ⟨l, hl, hv⟩ := hmt c hc
      have : l = l0 := by
        have hl0' : l ≠ 0 := by
          rintro rfl
          exact (hr.tracks.shape.wf.2 c hc).2.1 hl
        unfold partialVal at hv
        simp only [Dict.get?, List.find?, Option.map] at hv
        rw [hl0]
        by_cases hpl : (p : Int) = (l.natAbs : Int)
        · simp only [hpl, beq_self_eq_true, Option.some.injEq] at hv
          cases b
          · simp at hv; simp; omega
          · simp at hv; simp; omega
        · rw [if_neg hpl] at hv
          simp at hv
      rw [← this]; exact hl
    obtain ⟨c, hc, hnc⟩ := hlit (mapLit (bk s.finalNamesMap) l0)
    obtain ⟨d, hd, hdc⟩ := mem_sameClauses (hsame.trans h.same) hc
    obtain ⟨d0, hd0, rfl⟩ := List.mem_map.1 hd
    exact hnc ((hdc _).1 (List.mem_map.2 ⟨l0, hall d0 hd0, rfl⟩))
  -- the pass
  have hw : ∀ g', (g' = g ∨ g' = []) → isSetInGdb a seen g' (hid hash y) = false := by
    intro g' hg'
    unfold isSetInGdb
    rw [ehid]
    split
    · rcases hg' with rfl | rfl
      · unfold Gdb.hashExists
        rw [Bool.eq_false_iff]
        exact fun h => hk1 ((Dict.mem_keys_iff _ _).2 h)
      · simp [Gdb.hashExists, Dict.contains, Dict.get?]
    · simpa using hk2
  have hrt : readTab a f g = g ∨ readTab a f g = [] := by unfold readTab; split <;> simp
  have hqt : queryTab a f g = g ∨ queryTab a f g = [] := by unfold queryTab; split <;> simp
  obtain ⟨gw', hgw'⟩ : ∃ gw' : Gdb H, gw' = Dict.set g (hid hash y) (mkRow y (hid hash y) (hid hash y) 0) := ⟨_, rfl⟩
  have hc' : Dict.contains gw' (hid hash y) = true := by
    rw [hgw']; exact (Dict.mem_keys_iff _ _).1 (Dict.mem_keys_of_get? (Dict.get?_set_self _ _ _))
  obtain ⟨p', ps1, ps2, lft, rgt, n1, n2, q0, q, nv, hrun', hev, hl, hrr, s1, s2, hnv, hps, hrp, hdb, hrw⟩ :=
    expandAt_ok hash a (inputMode a) seen (readTab a f g) (queryTab a f g) gw' hF hpi.rep hyt
      (by rw [hpi.db]; exact hxp) hxid hxn (by rw [hpi.db]; exact hpi.rows) hxc
      (fun _ hin => by rw [hw _ hrt] at hin; simp at hin)
  obtain ⟨p, hp⟩ := expandX_of_at hash (gw := g) hf hpi.rep hxi hxc hc' hrun'
  obtain ⟨p'', hp'', ep, _⟩ := expandX_insert hash a (inputMode a) hf hpi.rep hxi hxc hc' hp
  have e := (M.pure_inj _ _).1 (hp''.symm.trans hrun')
  subst e
  have hwt : wants a seen (queryTab a f g) (hid hash y) = true := by
    unfold wants; rw [hg, hw _ hqt]; rfl
  rw [hwt, hc'] at hrp
  simp only [Bool.and_self, if_true, List.append_nil] at hrp
  obtain ⟨kf1, _⟩ := kidFor_of_child hash a (inputMode a) hF hyt hl
  obtain ⟨kf2, _⟩ := kidFor_of_child hash a (inputMode a) hF hyt hrr
  have hfl0 := initPS_flags (R := F) (F0 := F) hash a h0
  obtain ⟨v1, v2, v3, v4, v5⟩ := s1.gchild.flags hash kf1 hfl0.both hfl0.sol
  obtain ⟨u1, u2, u3, u4, u5⟩ := s2.gchild.flags hash kf2 v1 v2
  have hsat : ps2.isSat = false := by
    by_contra hc
    have hc : ps2.isSat = true := by simpa using hc
    rcases u5 hc with hc | hc
    · rcases v5 hc with hc | hc
      · have hc : ps0.isSat = true := hc
        rw [hns] at hc; simp at hc
      · exact hnoT _ (kf1.t hc).1
    · exact hnoT _ (kf2.t hc).1
  have hpq : p.queue = q := by rw [ep, hps]
  have hps' : p.isSat = false := by rw [ep, hps]; exact hsat
  have hpsol : p.solution = none := by
    have e1 : p.solution = ps2.solution := by rw [ep, hps]
    rw [e1]
    rw [hsat] at u1
    simpa using u1
  refine ⟨s, hid hash s, ps0, p, hs, h0, ?_, ?_, hps', hpsol⟩
  · have hgo : keepGoing a ps0 = true := by
      unfold keepGoing Queue.isEmpty
      rw [hpi.rep.size, hsol]
      simp [truthy]
    have := FaultyPasses.step (f := f) (FaultyPasses.refl (hash := hash) (a := a) (im := inputMode a) (seen := seen) ps0) hgo
      (by rw [hgdb]; exact hp)
    exact this
  · unfold keepGoing Queue.isEmpty
    rw [hpq, hrp.size]
    simp

/-! ### failing reads -/

/-- When the node is not known to be in the tables read, what they are does not matter. -/
theorem expandAt_unread {im : Mode} {seen : List H} {gr gq gr' gq' gw : Gdb H} {ps : PS H}
    {x : SetObj H} {l : List (SetObj H)} (hrep : Rep ps.queue (x :: l)) {R : Cnf} (hx : GItem R x)
    (hc : x.computedHash = some (hid hash x) ∨ x.computedHash = none)
    (h1 : isSetInGdb a seen gr (hid hash x) = false) (h2 : isSetInGdb a seen gr' (hid hash x) = false)
    (h3 : isSetInGdb a seen gq (hid hash x) = isSetInGdb a seen gq' (hid hash x)) :
    expandAt hash a im seen gr gq gw ps = expandAt hash a im seen gr' gq' gw ps := by
  obtain ⟨q0, hpop, _⟩ := hrep.pop
  have hgc : getChildren hash a seen gr x = getChildren hash a seen gr' x := by
    unfold getChildren
    split
    · rw [getHash_shape hash hx.1 hc]
      simp only [M.pure_bind, h1, h2, Bool.false_eq_true, if_false]
    · rfl
  have hgx : ∀ s1 s2 pl cnf, getChildren hash a seen gr' x = pure (s1, s2, pl, cnf) →
      ∀ k1 k2, saveAt hash a seen gq gw cnf k1 k2 = saveAt hash a seen gq' gw cnf k1 k2 := by
    intro s1 s2 pl cnf hg k1 k2
    have hcnf : cnf = x ∨ cnf = { x with computedHash := some (hid hash x) } := by
      unfold getChildren at hg
      split at hg
      · rw [getHash_shape hash hx.1 hc] at hg
        simp only [M.pure_bind] at hg
        split at hg
        · exact Or.inr (congrArg (fun t => t.2.2.2) ((M.pure_inj _ _).1 hg)).symm
        · obtain ⟨o, _, hg⟩ := M.bind_eq_pure.1 hg
          match o, hg with
          | none, hg => exact absurd hg (M.raise_ne_pure _ _)
          | some (_, _), hg => exact Or.inr (congrArg (fun t => t.2.2.2) ((M.pure_inj _ _).1 hg)).symm
      · obtain ⟨o, _, hg⟩ := M.bind_eq_pure.1 hg
        match o, hg with
        | none, hg => exact absurd hg (M.raise_ne_pure _ _)
        | some (_, _), hg => exact Or.inl (congrArg (fun t => t.2.2.2) ((M.pure_inj _ _).1 hg)).symm
    have hgh : cnf.getHash hash false = pure (hid hash x, { x with computedHash := some (hid hash x) }) := by
      rcases hcnf with rfl | rfl
      · exact getHash_shape hash hx.1 hc
      · unfold getHash; rfl
    unfold saveAt
    rw [hgh]
    simp only [M.pure_bind, h3]
  unfold expandAt
  rw [hpop]
  simp only [M.pure_bind, hgc]
  rcases M.cases (getChildren hash a seen gr' x) with e | ⟨er, e⟩ | ⟨⟨s1, s2, pl, cnf⟩, e⟩
  · rw [e, M.diverge_bind, M.diverge_bind]
  · rw [e, M.raise_bind, M.raise_bind]
  · have hsv := hgx s1 s2 pl cnf e
    rw [e]
    simp only [M.pure_bind, hsv]

/-- **C76, failing reads.** A lone process on an empty table: as long as no INSERT fails, failing reads change nothing at all: the run
goes through exactly the states of the run without faults (and so all that is proved of such runs holds). -/
theorem C76_reads_harmless {T : Str → Prop} (hcl : NoClash hash T) (ht : T ['T']) (hf : T ['F'])
    {F : Cnf} (hF : Proper F) (hne : F ≠ []) {root : SetObj H} (h : Input F root) {s : SetObj H} {k : H}
    (hroot : prepareRoot hash a root = pure (s, k)) (hT : TextsBelow T s) {ps0 ps : PS H}
    (h0 : initPS hash a [] 1 s = pure ps0) {fs : List PassFaults} (hfs : ∀ f ∈ fs, f.insert = false) :
    FaultyPasses hash a (inputMode a) [] fs ps0 ps ↔ Passes hash a (inputMode a) [] fs.length ps0 ps := by
  obtain ⟨_, hr, _⟩ := ready_of_prepare hash hF hne h hroot
  have hb : ∀ h r, Dict.get? ([] : Gdb H) h = some r → T r.body := fun _ _ h => by simp [Dict.get?] at h
  have hC : Ctx hash a (raws s.clauses) T ([] : Gdb H) [] :=
    ⟨hr.tracks.shape.wf, hcl, ht, hf, hT, hb, tableSound_nil hash, fun _ k r hr => by simp [Dict.get?] at hr⟩
  -- one pass
  have one : ∀ {n : Nat} {p : PS H} (f : PassFaults), f.insert = false → Passes hash a (inputMode a) [] n ps0 p → keepGoing a p = true →
      expandX hash a f (inputMode a) [] p.gdb p.gdb p.gdb p = expand hash a (inputMode a) [] p := by
    intro n p f hf hp hgo
    obtain ⟨l, hG⟩ := killed_sound hash a (inputMode a) hF hr hC h0 hp
    match l, hG with
    | [], hG =>
      unfold keepGoing Queue.isEmpty at hgo
      rw [hG.rep.size] at hgo
      simp at hgo
    | x :: l, hG =>
      obtain ⟨hxi, hxb, hxp, hxid, hxc, hxn⟩ := hG.items x (by simp)
      rw [expandX_eq hash a _ hf, expand_eq]
      have hno : ∀ g', (g' = p.gdb ∨ g' = []) → isSetInGdb a [] g' (hid hash x) = false := by
        intro g' hg'
        unfold isSetInGdb
        split
        · rcases hg' with rfl | rfl
          · unfold Gdb.hashExists
            rw [Bool.eq_false_iff]
            intro hc
            rcases hG.keys _ ((Dict.mem_keys_iff _ _).2 hc) with hm | ⟨_, hm⟩
            · simp [Dict.keys] at hm
            · simp at hm
          · simp [Gdb.hashExists, Dict.contains, Dict.get?]
        · simp
      have hrt : readTab a f p.gdb = p.gdb ∨ readTab a f p.gdb = [] := by unfold readTab; split <;> simp
      have hqt : queryTab a f p.gdb = p.gdb ∨ queryTab a f p.gdb = [] := by unfold queryTab; split <;> simp
      exact expandAt_unread hash hG.rep hxi hxc (hno _ hrt) (hno _ (Or.inl rfl)) (by rw [hno _ hqt, hno _ (Or.inl rfl)])
  constructor
  · intro hp
    have : ∀ {fs : List PassFaults} {p q : PS H}, p = ps0 → (∀ f ∈ fs, f.insert = false) → FaultyPasses hash a (inputMode a) [] fs p q →
        Passes hash a (inputMode a) [] fs.length p q := by
      intro fs p q hp0 hfs hp
      induction hp with
      | refl p => exact .refl p
      | @step fs f p ps1 ps2 hp hgo he ih =>
        have hpre := ih hp0 fun f hf => hfs f (by simp [hf])
        subst hp0
        rw [one f (hfs f (by simp)) hpre hgo] at he
        rw [List.length_append, List.length_singleton]
        exact .step hpre hgo he
    exact this rfl hfs hp
  · intro hp
    induction fs using List.reverseRecOn generalizing ps with
    | nil =>
      cases hp with
      | refl => exact .refl _
    | append_singleton fs f ih =>
      rw [List.length_append, List.length_singleton] at hp
      cases hp with
      | step hp hgo he =>
        refine .step (ih (fun f hf => hfs f (by simp [hf])) hp) hgo ?_
        rw [one f (hfs f (by simp)) hp hgo]
        exact he

/-- ... in particular its verdict is right when it ends. -/
theorem C76_verdict_without_insert_faults {T : Str → Prop} (hcl : NoClash hash T) (ht : T ['T']) (hf : T ['F'])
    {F : Cnf} (hF : Proper F) (hne : F ≠ []) {root : SetObj H} (h : Input F root) {s : SetObj H} {k : H}
    (hroot : prepareRoot hash a root = pure (s, k)) (hT : TextsBelow T s) {ps0 ps : PS H}
    (h0 : initPS hash a [] 1 s = pure ps0) {fs : List PassFaults} (hfs : ∀ f ∈ fs, f.insert = false)
    (hp : FaultyPasses hash a (inputMode a) [] fs ps0 ps) (hend : keepGoing a ps = false) :
    ps.isSat = true ↔ Satisfiable F := by
  have hp := (C76_reads_harmless hash hcl ht hf hF hne h hroot hT h0 hfs).1 hp
  obtain ⟨_, hr, hsat⟩ := ready_of_prepare hash hF hne h hroot
  have hC : Ctx hash a (raws s.clauses) T ([] : Gdb H) [] :=
    ⟨hr.tracks.shape.wf, hcl, ht, hf, hT, fun _ _ h => by simp [Dict.get?] at h, tableSound_nil hash, fun _ k r hr => by simp [Dict.get?] at hr⟩
  obtain ⟨l, hG⟩ := killed_sound hash a (inputMode a) hF hr hC h0 hp
  rw [← hsat]
  exact hG.verdict hash a hC hend

/-! ### non-vacuity -/

/-- `exKilled` is satisfiable; when the first INSERT fails the run says it is not. -/
example : ∃ s k ps0 ps, prepareRoot (fun s : Str => s) exGdbArgs (mkSet exKilled) = pure (s, k) ∧
    initPS (fun s : Str => s) exGdbArgs [] 1 s = pure ps0 ∧
    FaultyPasses (fun s : Str => s) exGdbArgs (inputMode exGdbArgs) [] [{ insert := true }] ps0 ps ∧
    keepGoing exGdbArgs ps = false ∧ ps.isSat = false ∧ Satisfiable exKilled := by
  have hF : Proper exKilled := by unfold exKilled Proper; decide
  have hI := input_mkSet (H := Str) hF (by simp [exKilled])
  have hs : Satisfiable exKilled := by
    refine ⟨fun v => decide (v ≠ 1 ∧ v ≠ 3), ?_⟩
    unfold exKilled Sat
    decide
  have hlit : ∀ l : Int, ∃ c ∈ exKilled, l ∉ c := by
    intro l
    by_cases h1 : l ∈ ([1, 2, 3] : List Int)
    · refine ⟨[-1, 4], by simp [exKilled], ?_⟩
      simp at h1 ⊢
      omega
    · exact ⟨_, by simp [exKilled], h1⟩
  obtain ⟨s, k, ps0, ps, h1, h2, h3, h4, h5, _⟩ := C76_failed_insert_refuted (fun s : Str => s) (a := exGdbArgs) rfl hF (by simp [exKilled]) hI
    hlit (g := []) (seen := []) (f := { insert := true }) rfl (fun _ _ _ => by simp [Dict.keys])
  exact ⟨s, k, ps0, ps, h1, h2, h3, h4, h5, hs⟩

/-- The hypotheses of `C76_reads_harmless` and `C76_never_wrongly_satisfiable` are met: three passes on `exKilled` in which every read fails. -/
example : ∃ s k ps0 ps, prepareRoot (fun s : Str => s) exGdbArgs (mkSet exKilled) = pure (s, k) ∧
    initPS (fun s : Str => s) exGdbArgs [] 1 s = pure ps0 ∧
    FaultyPasses (fun s : Str => s) exGdbArgs (inputMode exGdbArgs) []
      (List.replicate 3 { existsRead := true, childRead := true, existsWrite := true }) ps0 ps ∧
    Faulty (fun s : Str => s) exGdbArgs (inputMode exGdbArgs) [] [] s 3 { gdb := ps.gdb, procs := [ps] } ∧
    (ps.isSat = true → Satisfiable exKilled) := by
  have hF : Proper exKilled := by unfold exKilled Proper; decide
  have hI := input_mkSet (H := Str) hF (by simp [exKilled])
  have hcl : NoClash (fun s : Str => s) (fun _ => True) := fun _ _ _ _ e => e
  have hok := exKilledRun_ok
  rcases M.cases exKilledRun with e | ⟨er, e⟩ | ⟨⟨s, k, ps⟩, e⟩
  · rw [e] at hok; exact absurd hok (by decide)
  · rw [e] at hok; exact absurd hok (by intro h; cases h)
  · unfold exKilledRun at e
    obtain ⟨⟨s', k'⟩, h1, e⟩ := M.bind_eq_pure.1 e
    obtain ⟨ps0, h2, e⟩ := M.bind_eq_pure.1 e
    obtain ⟨ps', h3, e⟩ := M.bind_eq_pure.1 e
    have e := (M.pure_inj _ _).1 e
    cases e
    have hroot := (prepareRootF_le (fun s : Str => s) exGdbArgs 50 (mkSet exKilled)).pure h1
    have hpass := passesF_spec (fun s : Str => s) h3
    have hfp := (C76_reads_harmless (fun s : Str => s) (T := fun _ => True) hcl trivial trivial hF (by simp [exKilled]) hI hroot
      (fun _ _ => trivial) h2 (fs := List.replicate 3 { existsRead := true, childRead := true, existsWrite := true })
      (by intro f hf; rw [List.eq_of_mem_replicate hf])).2 hpass
    have hfa := FaultyPasses.faulty (fun s : Str => s) h2 hfp
    exact ⟨s, k, ps0, ps, hroot, h2, hfp, hfa,
      (C76_never_wrongly_satisfiable (fun s : Str => s) (T := fun _ => True) hcl trivial trivial hF (by simp [exKilled]) hI hroot
        (fun _ _ => trivial) (tableSound_nil _) (fun _ _ h => trivial) hfa (List.mem_singleton.2 rfl)).1⟩

end NDP
