import Verif.Proofs.DrawInv
/- The drawing of a whole run of one process. -/
namespace NDP
open Spec SetObj
variable {H : Type} [DecidableEq H] (hash : Str → H) (a : Args) (im : Mode)

theorem DrawInv.init {g : Gdb H} {s : SetObj H} {h : H} (hid : s.id = some h) {ps : PS H} {b t : Str} (ht : h = hash t)
    (hps : initPS hash a g 1 s = pure ps) : DrawInv hash a h ps [.node h b t none] := by
  unfold initPS at hps
  obtain ⟨⟨k, s'⟩, hk, hps⟩ := M.bind_eq_pure.1 hps
  obtain ⟨hs', _⟩ := getHash_spec hash hk
  obtain ⟨q, hq, hps⟩ := M.bind_eq_pure.1 hps
  have hid' : s'.id = some h := by rw [hs']; exact hid
  simp only [hid'] at hps
  rw [← (M.pure_inj _ _).1 hps]
  refine ⟨rfl, by simp [Dict.keys], ?_, by simp, by simp, by simp [redMarks], by simp, ?_, rfl, rfl, ?_, by simp, by simp, rfl⟩
  · intro k
    have : nodesAt (arrowsFrom [Dot.node h b t none] k) = [] := rfl
    rw [this]
    show [] = ((Dict.get? [(h, [])] k).getD [] : List H)
    simp only [Dict.get?, List.lookup]
    split <;> simp_all
  · intro c
    by_cases hc : c = h
    · subst hc; simp [drawnNodes, redMarks, arrowsInto]
    · have : ¬ h = c := fun e => hc e.symm
      simp [drawnNodes, redMarks, arrowsInto, hc, this]
  · intro _ k b' t' i hm
    simp only [List.mem_singleton, Dot.node.injEq] at hm
    rw [hm.1, hm.2.2.1]
    exact ht

/-- One process: what is drawn, whatever databases are used. -/
theorem runMainDot_inv (seen : List H) (g : Gdb H) {fails : Nat → Bool} {sched : List Bool} {s : SetObj H} {h : H}
    (hid : s.id = some h) {b t : Str} (ht : h = hash t) {ps : PS H} {d : List (Dot H)}
    (hrun : runMainDot hash a im seen g 0 fails sched [.node h b t none] s = pure (ps, d)) : DrawInv hash a h ps d := by
  unfold runMainDot at hrun
  obtain ⟨ps0, h0, hrun⟩ := M.bind_eq_pure.1 hrun
  have hd0 := DrawInv.init hash a hid (b := b) ht h0
  refine pyWhile_partial (step := mainStepDot hash a im seen 0 fails sched)
    (fun st => DrawInv hash a h st.1.ps st.2 ∧ QIds st.1.ps.queue)
    (fun r => DrawInv hash a h r.1 r.2) ?_ ?_ _ _ ⟨hd0, initPS_qids hash a h0⟩ hrun
  · rintro ⟨⟨ps, gen⟩, d⟩ st' ⟨hd, hq⟩ hstep
    unfold mainStepDot at hstep
    split at hstep
    · obtain ⟨⟨ps1, d1⟩, h1, hstep⟩ := M.bind_eq_pure.1 hstep
      obtain ⟨_, _, _, _, _, _, _, _, _, _, _, _, _, _, hpass⟩ := expandDot_pass hash a im hq h1
      simp only [Nat.lt_irrefl, decide_false, Bool.and_false, Bool.false_and, Bool.false_eq_true, if_false] at hstep
      have e := (M.pure_inj _ _).1 hstep
      simp only [Sum.inl.injEq] at e
      rw [← e]
      exact ⟨hd.pass hash a im hpass, hpass.qids⟩
    · have e := (M.pure_inj _ _).1 hstep
      simp at e
  · rintro ⟨⟨ps, gen⟩, d⟩ r ⟨hd, hq⟩ hstep
    unfold mainStepDot at hstep
    split at hstep
    · obtain ⟨⟨ps1, d1⟩, h1, hstep⟩ := M.bind_eq_pure.1 hstep
      simp only [Nat.lt_irrefl, decide_false, Bool.and_false, Bool.false_and, Bool.false_eq_true, if_false] at hstep
      have e := (M.pure_inj _ _).1 hstep
      simp at e
    · have e := (M.pure_inj _ _).1 hstep
      simp only [Sum.inr.injEq] at e
      rw [← e]
      exact hd

/-! ### without the global DB -/

/-- The label a node is drawn with. -/
def infoOf (c : SetObj H) : DotInfo := ⟨c.finalNamesMap, c.originalValues, c.evaluatedVars, c.highestOccurringVar⟩

theorem shownName_infoOf (c : SetObj H) (v : Nat) : shownName (infoOf c) v = nameOf c v := rfl

theorem child_arrow {R : Cnf} (hR : Proper R) {x ch : SetObj H} {b : Bool} (hx : Tracks R x) (hch : IsChild x b ch) {p : H}
    {ks : List H} {ps ps' : PS H} (hpid : ps.nodesChildren.get? p = some ks) {ch' : SetObj H}
    (hpc : processChild hash a im false (some p) ps ch = pure (ps', ch')) {tb ta : Str} (htb : ch.toStr = pure tb)
    (hta : ch'.toStr = pure ta) :
    (∃ t, ArrowTo hash im (raws x.clauses) (pivotOf (raws x.clauses)) b t ∧
      ∀ h, arrowsFrom (dotsFor p tb ta ch') h = if p = h then [t] else []) ∧
    (∀ h b t i, Dot.node h b t i ∈ dotsFor p tb ta ch' → ∃ inf, i = some inf ∧ LabelOf hash im R h b t inf) ∧
    ∃ ks', ps'.nodesChildren.get? p = some ks' := by
  obtain ⟨ps1, c1, news, h1, h2, h3, h4, h5, h6⟩ := processChild_full hash a im hR hx hch hpid
  have e := (M.pure_inj _ _).1 (hpc.symm.trans h1)
  simp only [Prod.mk.injEq] at e
  obtain ⟨rfl, rfl⟩ := e
  obtain ⟨_, u, _, hu, _, hh⟩ := processChild_handled hash a im hpc
  have eu : u = ta := (M.pure_inj _ _).1 (hu.symm.trans hta)
  subst eu
  have hg := (h2.graph hash a im hpid).1
  have hT : ch.value = some true ↔ residual [((pivotOf (raws x.clauses) : Int), b)] (raws x.clauses) = [] := by
    rw [hch.value]; exact childVal_true
  have hFa : ch.value = some false ↔ [] ∈ residual [((pivotOf (raws x.clauses) : Int), b)] (raws x.clauses) := by
    rw [hch.value]; exact childVal_false
  refine ⟨?_, ?_, _, hg⟩
  · cases hh with
    | const v hv hv' hst =>
      refine ⟨.text [if v then 'T' else 'F'], ?_, ?_⟩
      · cases v
        · exact .fls (hFa.1 hv)
        · exact .tru (hT.1 hv)
      · intro h
        have : u = [if v then 'T' else 'F'] := ((M.pure_inj _ _).1 ((toStr_value hv').symm.trans hta)).symm
        unfold dotsFor
        rw [hst, this]
        by_cases hp : p = h <;> simp [arrowsFrom, hp]
    | uniq k p' ks hidk hp hst hnew hks hnc hsat hu' hhi hha =>
      cases hp
      have hv : ch.value = none := by
        rw [← h4]
        cases hv : ch'.value with
        | none => rfl
        | some v =>
          exfalso
          rw [h4] at hv
          rcases h5 with ⟨_, h5⟩ | ⟨h5, _⟩
          · exact h5 hst
          · cases h2 with
            | const v' hv' => simp at h5
            | uniq c ks' hv' => rw [hv] at hv'; simp at hv'
            | red c ks' rids hv' => rw [hv] at hv'; simp at hv'
      obtain ⟨c, hlo, hc⟩ := h6 hv
      have e2 := kids_edges (hash := hash) (a := a) (im := im) hR hx hch
      have hkk : kidsOf hash a im ch = [hid hash c] := by unfold kidsOf; rw [hv, hlo]; rfl
      have hk : k = hid hash c := by rw [hc] at hidk; simpa using hidk.symm
      rw [hkk] at e2
      refine ⟨.node k, ?_, ?_⟩
      · rw [hk]
        generalize hks2 : [hid hash c] = l at e2
        cases e2 with
        | const h => simp at hks2
        | node N n1 n2 hN =>
          simp only [List.cons.injEq, and_true] at hks2
          rw [hks2]
          exact .node N n1 n2 hN
      · intro h
        unfold dotsFor
        rw [hst, hidk]
        by_cases hp : p = h <;> simp [arrowsFrom, hp]
    | red k p' ks hidk hp hst hold hks hnc hsat hu' hhi hha =>
      cases hp
      have hv : ch.value = none := by
        cases h2 with
        | const v hv =>
          exfalso
          have hval : ch.value = some v := hv
          have hnc2 := hnc
          have : (ps.nodesChildren.get? p) = (ps.nodesChildren.set p (ks ++ [k])).get? p := by
            conv_lhs => rw [show ps.nodesChildren = ps.nodesChildren.set p (ks ++ [k]) from hnc2]
          rw [hks, Dict.get?_set, if_pos rfl] at this
          simp at this
        | uniq c ks' hv' => exact hv'
        | red c ks' rids hv' => exact hv'
      obtain ⟨c, hlo, hc⟩ := h6 hv
      have e2 := kids_edges (hash := hash) (a := a) (im := im) hR hx hch
      have hkk : kidsOf hash a im ch = [hid hash c] := by unfold kidsOf; rw [hv, hlo]; rfl
      have hk : k = hid hash c := by rw [hc] at hidk; simpa using hidk.symm
      rw [hkk] at e2
      refine ⟨.node k, ?_, ?_⟩
      · rw [hk]
        generalize hks2 : [hid hash c] = l at e2
        cases e2 with
        | const h => simp at hks2
        | node N n1 n2 hN =>
          simp only [List.cons.injEq, and_true] at hks2
          rw [hks2]
          exact .node N n1 n2 hN
      · intro h
        unfold dotsFor
        rw [hst, hidk]
        by_cases hp : p = h <;> simp [arrowsFrom, hp]
  · intro h b' t i hm
    have hst : ch'.status = some .unique := by
      unfold dotsFor at hm
      split at hm <;> simp_all
    have hv : ch.value = none := by
      cases hv : ch.value with
      | none => rfl
      | some v =>
        exfalso
        rcases h5 with ⟨_, h5⟩ | ⟨h5, _⟩
        · exact h5 hst
        · cases h2 with
          | const v' hv' => simp at h5
          | uniq c ks' hv' => rw [hv] at hv'; simp at hv'
          | red c ks' rids hv' => rw [hv] at hv'; simp at hv'
    obtain ⟨c, hlo, hc⟩ := h6 hv
    have hpre := hch.pre hx hv
    obtain ⟨c', hlo', htr, _⟩ := toLo_tracks hR im a.sortBySize a.thief hpre
    have ec : c' = c := (M.pure_inj _ _).1 (hlo'.symm.trans hlo)
    subst ec
    have hb1 : tb = textOf (raws ch.clauses) := by
      rw [← bodyStr_text hpre.cne]
      exact (M.pure_inj _ _).1 (htb.symm.trans (toStr_ok hv hpre.ne))
    have hb2 : u = textOf (raws c'.clauses) := by
      rw [← bodyStr_text htr.node.cne]
      have : ch'.toStr = c'.toStr := by rw [hc]; rfl
      exact (M.pure_inj _ _).1 (hta.symm.trans (this.trans (toStr_ok htr.node.value htr.node.ne)))
    have hi : ch'.id = some (hid hash c') := by rw [hc]
    unfold dotsFor at hm
    rw [hst, hi] at hm
    simp only [List.mem_cons, Dot.node.injEq, reduceCtorEq, List.not_mem_nil, or_false] at hm
    obtain ⟨rfl, rfl, rfl, rfl⟩ := hm
    have hf := child_fresh hch hv
    have hcl : raws ch.clauses = residual [((pivotOf (raws x.clauses) : Int), b)] (raws x.clauses) := by
      rw [hch.clauses]
      apply nonempties_eq
      intro hm
      rw [hFa.2 hm] at hv; simp at hv
    refine ⟨_, rfl, raws ch.clauses, raws c'.clauses, hb1, hb2, ?_, ?_, ?_⟩
    · refine toLo_normalForm im _ _ hf ?_ hlo
      rw [hcl]
      apply residual_nodup
      intro c hc
      obtain ⟨c0, hc0, rfl⟩ := List.mem_map.1 hc
      exact asc_nodup (hx.node.asc c0 hc0)
    · rw [hb2, ← bodyStr_text htr.node.cne]; rfl
    · have := htr.same
      rw [hc]
      exact this

/-- The drawing of one process without the global DB; `l` are the queued nodes. -/
structure LocalDraw (R : Cnf) (ps : PS H) (d : List (Dot H)) (l : List (SetObj H)) : Prop where
  todo : ∀ x ∈ l, arrowsFrom d (hid hash x) = []
  done : ∀ h ∈ ps.nodesChildren.keys, (∃ x ∈ l, hid hash x = h) ∨ ArrowsOf hash im h (arrowsFrom d h)
  lab : ∀ h b t i, Dot.node h b t (some i) ∈ d → LabelOf hash im R h b t i

theorem ArrowsOf.mk' {x : SetObj H} (hx : Node x) {t1 t2 : Target H}
    (h1 : ArrowTo hash im (raws x.clauses) (pivotOf (raws x.clauses)) true t1)
    (h2 : ArrowTo hash im (raws x.clauses) (pivotOf (raws x.clauses)) false t2) :
    ArrowsOf hash im (hid hash x) [t1, t2] := by
  cases hc : x.clauses with
  | nil => exact absurd hc hx.ne
  | cons c cs =>
    cases hcr : c.raw with
    | nil => exact absurd hcr (hx.cne c (by simp [hc]))
    | cons y ys =>
      have hG : raws x.clauses = (y :: ys) :: raws cs := by simp [hc, raws, hcr]
      have hp : pivotOf (raws x.clauses) = y.natAbs := by rw [hG]; rfl
      rw [hp] at h1 h2
      exact ⟨raws x.clauses, y, ys, raws cs, t1, t2, hG, by rw [hid, bodyStr_text hx.cne], h1, h2, rfl⟩

theorem arrowsFrom_nil_of_src {d : List (Dot H)} {h : H} (h1 : ∀ c, Dot.edge h c ∉ d) (h2 : ∀ t, Dot.edgeConst h t ∉ d) :
    arrowsFrom d h = [] := by
  unfold arrowsFrom
  rw [List.filterMap_eq_nil_iff]
  intro x hx
  cases x with
  | edge p c => simp only [ite_eq_right_iff, reduceCtorEq]; rintro rfl; exact h1 c hx
  | edgeConst p t => simp only [ite_eq_right_iff, reduceCtorEq]; rintro rfl; exact h2 t hx
  | _ => rfl

/-- Arrows only leave recorded nodes. -/
def SrcKeys (ps : PS H) (d : List (Dot H)) : Prop := ∀ h, h ∉ ps.nodesChildren.keys → arrowsFrom d h = []

theorem local_step (hg : a.useGlobalDb = false) (seen : List H) {R : Cnf} (hR : Proper R) {s0 : SetObj H} {root : H}
    {ps : PS H} {x : SetObj H} {l : List (SetObj H)} (h : Inv hash a im R s0 root ps (x :: l)) {d : List (Dot H)}
    (hq : QIds ps.queue) (hl : LocalDraw hash im R ps d (x :: l)) (hsrc : SrcKeys ps d) {ps' : PS H} {e : List (Dot H)}
    (hrun : expandDot hash a im seen ps = pure (ps', e)) :
    ∃ l', Inv hash a im R s0 root ps' l' ∧ LocalDraw hash im R ps' (d ++ e) l' ∧ SrcKeys ps' (d ++ e) := by
  obtain ⟨hxt, hxm, hxp, hxi, hxn⟩ := h.items x (by simp)
  obtain ⟨ps1, l', e1, hinv, _, hmono, _, _, _, ids, hids, hnew, hkeys⟩ := h.step' hash a im hg seen hR
  have e2 : ps1 = ps' := by
    have := expandDot_fst hash a im seen (ps := ps) (fun x q hx => (hq.pop hx).1)
    rw [hrun, e1] at this
    exact ((M.pure_inj _ _).1 this).symm
  subst e2
  obtain ⟨y, p, s1, s2, c1, c2, b1, t1, b2, t2, pulled, psA, psB, psC, hp⟩ := expandDot_pass hash a im hq hrun
  obtain ⟨q, hpop, _, _⟩ := hp.pop
  obtain ⟨q0, hpop0, _⟩ := h.rep.pop
  have ey := (M.pure_inj _ _).1 (hpop.symm.trans hpop0)
  simp only [Prod.mk.injEq] at ey
  obtain ⟨rfl, -⟩ := ey
  have ep : p = hid hash y := by
    have := hp.id
    rw [hxi] at this
    simpa using this.symm
  subst ep
  obtain ⟨seen', x', hk⟩ := hp.kids
  have hpu : pulled = false := getChildren_pulled hash a hg hk
  subst hpu
  obtain ⟨lft, rgt, hev, hcl, hcr⟩ := evaluate_ok hxt.node
  have hev2 : y.evaluate = pure (some (s1, s2)) := by
    unfold getChildren at hk
    rw [hg] at hk
    simp only [Bool.false_eq_true, if_false] at hk
    obtain ⟨r, hr, hk⟩ := M.bind_eq_pure.1 hk
    cases r with
    | none => exact absurd hk (M.raise_ne_pure _ _)
    | some r =>
      have e := (M.pure_inj _ _).1 hk
      simp only [Prod.mk.injEq] at e
      rw [hr, ← e.1, ← e.2.1]
  cases pure_inj_some (hev.symm.trans hev2)
  obtain ⟨⟨u1, ha1, hd1⟩, hlab1, ks1, hks1⟩ := child_arrow hash a im hR hxt hcl (ps := psA) (ks := [])
    (by rw [hp.nc.1]; exact hxn) hp.one hp.str1 hp.str1'
  obtain ⟨⟨u2, ha2, hd2⟩, hlab2, -⟩ := child_arrow hash a im hR hxt hcr hks1 hp.two hp.str2 hp.str2'
  have hfrom : ∀ k, arrowsFrom (d ++ e) k = arrowsFrom d k ++ if hid hash y = k then [u1, u2] else [] := by
    intro k
    rw [arrowsFrom_append, hp.dots, arrowsFrom_append, hd1, hd2]
    by_cases hk : hid hash y = k <;> simp [hk]
  have hyk : hid hash y ∈ ps.nodesChildren.keys := Dict.mem_keys_of_get? hxn
  have hnd := h.ids
  rw [List.map_cons, List.nodup_cons] at hnd
  refine ⟨l', hinv, ⟨?_, ?_, ?_⟩, ?_⟩
  · intro z hz
    have hm : hid hash z ∈ l'.map (hid hash) := List.mem_map.2 ⟨z, hz, rfl⟩
    rw [hids, List.mem_append] at hm
    have hne : hid hash y ≠ hid hash z ∧ arrowsFrom d (hid hash z) = [] := by
      rcases hm with hm | hm
      · refine ⟨fun e => hnd.1 (e ▸ hm), ?_⟩
        obtain ⟨w, hw, e⟩ := List.mem_map.1 hm
        rw [← e]
        exact hl.todo w (by simp [hw])
      · exact ⟨fun e => hnew _ hm (e ▸ hyk), hsrc _ (hnew _ hm)⟩
    rw [hfrom, if_neg hne.1, hne.2]
    rfl
  · intro k hk
    rcases hkeys k hk with hk | hk
    · rcases hl.done k hk with ⟨w, hw, rfl⟩ | hdone
      · simp only [List.mem_cons] at hw
        rcases hw with rfl | hw
        · right
          rw [hfrom, if_pos rfl, hl.todo w (by simp)]
          exact ArrowsOf.mk' hash im hxt.node ha1 ha2
        · left
          have : hid hash w ∈ l'.map (hid hash) := by
            rw [hids, List.mem_append]; exact Or.inl (List.mem_map.2 ⟨w, hw, rfl⟩)
          exact List.mem_map.1 this
      · right
        have hne : hid hash y ≠ k := by
          rintro rfl
          obtain ⟨_, _, _, _, _, _, _, _, _, _, e⟩ := hdone
          rw [hl.todo y (by simp)] at e
          simp at e
        rw [hfrom, if_neg hne, List.append_nil]
        exact hdone
    · left
      have : k ∈ l'.map (hid hash) := by rw [hids, List.mem_append]; exact Or.inr hk
      exact List.mem_map.1 this
  · intro k b t i hm
    rw [List.mem_append, hp.dots, List.mem_append] at hm
    rcases hm with hm | hm | hm
    · exact hl.lab k b t i hm
    · obtain ⟨inf, e, hL⟩ := hlab1 k b t _ hm
      cases e; exact hL
    · obtain ⟨inf, e, hL⟩ := hlab2 k b t _ hm
      cases e; exact hL
  · intro k hk
    have hk0 : k ∉ ps.nodesChildren.keys := fun hm => hk (hmono k hm)
    rw [hfrom, hsrc k hk0, if_neg (fun e : hid hash y = k => hk0 (e ▸ hyk))]
    rfl

/-- One process without the global DB: arrows and labels of the drawing. -/
theorem runMainDot_local (hg : a.useGlobalDb = false) (seen : List H) (g : Gdb H) {fails : Nat → Bool}
    {sched : List Bool} {R : Cnf} (hR : Proper R) {s : SetObj H} (hs : Ready hash a R s) {b t : Str} {ps : PS H}
    {d : List (Dot H)}
    (hrun : runMainDot hash a im seen g 0 fails sched [.node (hid hash s) b t none] s = pure (ps, d)) :
    (∀ h ∈ ps.nodesChildren.keys, arrowsFrom d h = [] ∨ ArrowsOf hash im h (arrowsFrom d h)) ∧
    (¬ (a.exitUponSolving = true ∧ ps.isSat = true) → ∀ h ∈ ps.nodesChildren.keys, ArrowsOf hash im h (arrowsFrom d h)) ∧
    (∀ h b t i, Dot.node h b t (some i) ∈ d → LabelOf hash im R h b t i) ∧
    ∀ h b' t', Dot.node h b' t' none ∈ d → b' = b ∧ t' = t := by
  obtain ⟨ps0, h0, hinv, hu, hsat, hnc⟩ := initPS_ok hash a im g 1 hs
  have hne := hs.tracks.ne_nil
  have hstore : hid hash (store a.useRuntimeDb s) = hid hash s := hid_store hash hs.tracks.node _
  unfold runMainDot at hrun
  rw [h0] at hrun
  have hrun : pyWhile (mainStepDot hash a im seen 0 fails sched)
      (({ ps := ps0, gen := decide (0 < 0) }, [.node (hid hash s) b t none]) : MainSt H × List (Dot H)) = pure (ps, d) := hrun
  refine pyWhile_partial (step := mainStepDot hash a im seen 0 fails sched)
    (fun st => (∃ l, Inv hash a im R s (hid hash s) st.1.ps l ∧ LocalDraw hash im R st.1.ps st.2 l) ∧ QIds st.1.ps.queue ∧
      SrcKeys st.1.ps st.2 ∧ ∀ h b' t', Dot.node h b' t' none ∈ st.2 → b' = b ∧ t' = t)
    (fun r => (∀ h ∈ r.1.nodesChildren.keys, arrowsFrom r.2 h = [] ∨ ArrowsOf hash im h (arrowsFrom r.2 h)) ∧
      (¬ (a.exitUponSolving = true ∧ r.1.isSat = true) → ∀ h ∈ r.1.nodesChildren.keys, ArrowsOf hash im h (arrowsFrom r.2 h)) ∧
      (∀ h b t i, Dot.node h b t (some i) ∈ r.2 → LabelOf hash im R h b t i) ∧
      ∀ h b' t', Dot.node h b' t' none ∈ r.2 → b' = b ∧ t' = t)
    ?_ ?_ _ _ ⟨⟨_, hinv, ?_, ?_, ?_⟩, initPS_qids hash a h0, ?_, ?_⟩ hrun
  · rintro ⟨⟨ps, gen⟩, d⟩ st' ⟨⟨l, hi, hl⟩, hq, hsrc, hroot⟩ hstep
    unfold mainStepDot at hstep
    by_cases hk : NDP.keepGoing a ps = true
    swap
    · simp [hk] at hstep
    simp only [hk, if_true] at hstep
    obtain ⟨⟨ps1, d1⟩, h1, hstep⟩ := M.bind_eq_pure.1 hstep
    have hpass := expandDot_pass hash a im hq h1
    rw [hi.keepGoing hash a im hne] at hk
    simp only [Nat.lt_irrefl, decide_false, Bool.and_false, Bool.false_and, Bool.false_eq_true, if_false] at hstep
    have e := (M.pure_inj _ _).1 hstep
    simp only [Sum.inl.injEq] at e
    rw [← e]
    match l, hi, hl with
    | [], _, _ => simp at hk
    | x :: l, hi, hl =>
      obtain ⟨l', k1, k2, k3⟩ := local_step hash a im hg seen hR hi hq hl hsrc h1
      obtain ⟨_, _, _, _, c1, c2, _, _, _, _, _, _, _, _, hpass⟩ := hpass
      refine ⟨⟨l', k1, k2⟩, hpass.qids, k3, ?_⟩
      intro h b' t' hm
      rw [List.mem_append] at hm
      rcases hm with hm | hm
      · exact hroot h b' t' hm
      · exfalso
        rw [hpass.dots, List.mem_append] at hm
        have key : ∀ (p : H) (x y : Str) (c : SetObj H), Dot.node h b' t' none ∉ dotsFor p x y c := by
          intro p x y c hm
          unfold dotsFor at hm
          split at hm <;> simp at hm
        rcases hm with hm | hm
        · exact key _ _ _ _ hm
        · exact key _ _ _ _ hm
  · rintro ⟨⟨ps, gen⟩, d⟩ r ⟨⟨l, hi, hl⟩, hq, hsrc, hroot⟩ hstep
    unfold mainStepDot at hstep
    by_cases hk : NDP.keepGoing a ps = true
    · exfalso
      simp only [hk, if_true] at hstep
      obtain ⟨⟨ps1, d1⟩, h1, hstep⟩ := M.bind_eq_pure.1 hstep
      simp at hstep
    · simp only [hk, Bool.false_eq_true, if_false, M.pure_inj, Sum.inr.injEq] at hstep
      rw [← hstep]
      refine ⟨?_, ?_, hl.lab, hroot⟩
      · intro h hh
        rcases hl.done h hh with ⟨x, hx, rfl⟩ | hd
        · exact Or.inl (hl.todo x hx)
        · exact Or.inr hd
      · intro hc h hh
        have hk' := hi.keepGoing hash a im hne
        rcases hl.done h hh with ⟨x, hx, rfl⟩ | hd
        · exfalso
          simp only at hk hk' hc
          rw [hk'] at hk
          cases l with
          | nil => simp at hx
          | cons x l => revert hk hc; cases a.exitUponSolving <;> cases ps.isSat <;> simp
        · exact hd
  · intro x hx; rfl
  · intro h hh
    left
    simp only [hnc, Dict.keys, List.map_cons, List.map_nil, List.mem_singleton] at hh
    exact ⟨store a.useRuntimeDb s, by simp, by rw [hh]; exact hstore⟩
  · intro h b t i hm; simp at hm
  · intro h _; rfl
  · intro h b' t' hm
    simp only [List.mem_singleton, Dot.node.injEq] at hm
    exact ⟨hm.2.1, hm.2.2.1⟩

end NDP
