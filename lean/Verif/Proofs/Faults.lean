import Verif.Model.Faults
import Verif.Proofs.SharedExec
/- Runs with failing database statements: every pass is a pass of `expandAt` on possibly emptier tables. -/
namespace NDP
open Spec SetObj
variable {H : Type} [DecidableEq H] (hash : Str → H) (a : Args) (im : Mode)

/-- What the reads of a pass amount to: a failing one sees an empty table. -/
def readTab (f : PassFaults) (g : Gdb H) : Gdb H := if (a.gdbNoMem && f.existsRead || f.childRead) = true then [] else g

/-- What the existence query before the INSERT amounts to. -/
def queryTab (f : PassFaults) (g : Gdb H) : Gdb H := if (a.gdbNoMem && f.existsWrite) = true then [] else g

theorem le_nil (g : Gdb H) : Gdb.le [] g := fun _ _ h => by simp [Dict.get?] at h

theorem readTab_le {f : PassFaults} {g g' : Gdb H} (h : Gdb.le g g') : Gdb.le (readTab a f g) g' := by
  unfold readTab; split
  · exact le_nil g'
  · exact h

theorem isSetInGdbX_eq (seen : List H) (b : Bool) (g : Gdb H) (h : H) :
    isSetInGdbX a seen b g h = isSetInGdb a seen (if (a.gdbNoMem && b) = true then [] else g) h := by
  unfold isSetInGdbX isSetInGdb
  cases a.gdbNoMem <;> cases b <;> simp [Gdb.hashExists, Dict.contains, Dict.get?]

theorem getChildrenX_eq (f : PassFaults) (seen : List H) (g : Gdb H) (x : SetObj H) :
    getChildrenX hash a f seen g x = getChildren hash a seen (readTab a f g) x := by
  have key : ∀ ch, (if isSetInGdbX a seen f.existsRead g ch then
        (if f.childRead then none else getChildrenFromGdb hash g ch) else none) =
      (if isSetInGdb a seen (readTab a f g) ch then getChildrenFromGdb hash (readTab a f g) ch else none) := by
    intro ch
    have hnil : getChildrenFromGdb hash ([] : Gdb H) ch = none := rfl
    unfold isSetInGdbX isSetInGdb readTab
    cases a.gdbNoMem <;> cases f.existsRead <;> cases f.childRead <;> simp [hnil, Gdb.hashExists, Dict.contains, Dict.get?]
  unfold getChildrenX getChildren
  simp only [key]
  rfl

theorem saveX_eq {f : PassFaults} (hf : f.insert = false) (seen : List H) (gq gw : Gdb H) (x : SetObj H) (h1 h2 : H) :
    saveX hash a f seen gq gw x h1 h2 = saveAt hash a seen (queryTab a f gq) gw x h1 h2 := by
  unfold saveX saveAt insertRowX queryTab
  simp only [isSetInGdbX_eq, hf, Bool.false_eq_true, if_false]

/-- Without a failing INSERT a pass is one on possibly emptier tables. -/
theorem expandX_eq {f : PassFaults} (hf : f.insert = false) (seen : List H) (gr gq gw : Gdb H) (ps : PS H) :
    expandX hash a f im seen gr gq gw ps = expandAt hash a im seen (readTab a f gr) (queryTab a f gq) gw ps := by
  unfold expandX expandAt
  simp only [getChildrenX_eq, saveX_eq hash a hf]

/-- The row written for `x`. -/
def mkRow (x : SetObj H) (h1 h2 : H) (nv : Nat) : Row H :=
  { body := bodyStr x.clauses, cid1 := h1, cid2 := h2, numClauses := x.clauses.length, numVars := nv }

/-- With a failing INSERT: the pass of a process that finds the row already there. -/
theorem expandX_insert {f : PassFaults} (hf : f.insert = true) {seen : List H} {gr gq gw gw' : Gdb H} {ps p : PS H}
    {x : SetObj H} {l : List (SetObj H)} (hrep : Rep ps.queue (x :: l)) {R : Cnf} (hx : GItem R x)
    (hc : x.computedHash = some (hid hash x) ∨ x.computedHash = none)
    (hw : Dict.contains gw' (hid hash x) = true)
    (h : expandX hash a f im seen gr gq gw ps = pure p) :
    ∃ p', expandAt hash a im seen (readTab a f gr) (queryTab a f gq) gw' ps = pure p' ∧ p = { p' with gdb := p.gdb } ∧
      (p.gdb = gw ∨ ∀ p'', expandAt hash a im seen (readTab a f gr) (queryTab a f gq) gw ps = pure p'' → p.gdb = p''.gdb) := by
  obtain ⟨q0, hpop, _⟩ := hrep.pop
  unfold expandX at h
  rw [hpop] at h
  simp only [M.pure_bind, getChildrenX_eq] at h
  obtain ⟨⟨s1, s2, pulled, cnf⟩, hg, h⟩ := M.bind_eq_pure.1 h
  have hcnf : cnf = x ∨ cnf = { x with computedHash := some (hid hash x) } := by
    unfold getChildren at hg
    split at hg
    · rw [getHash_shape hash hx.1 hc] at hg
      simp only [M.pure_bind] at hg
      split at hg
      · exact Or.inr (congrArg (fun t => t.2.2.2) ((M.pure_inj _ _).1 hg)).symm
      · obtain ⟨o, _, hg⟩ := M.bind_eq_pure.1 hg
        match o, hg with
        | none, hg => exact absurd hg (M.raise_ne_pure _ _)
        | some (_, _), hg => exact Or.inr (congrArg (fun t => t.2.2.2) ((M.pure_inj _ _).1 hg)).symm
    · obtain ⟨o, _, hg⟩ := M.bind_eq_pure.1 hg
      match o, hg with
      | none, hg => exact absurd hg (M.raise_ne_pure _ _)
      | some (_, _), hg => exact Or.inl (congrArg (fun t => t.2.2.2) ((M.pure_inj _ _).1 hg)).symm
  simp only at h
  obtain ⟨⟨ps1, s1'⟩, hp1, h⟩ := M.bind_eq_pure.1 h
  obtain ⟨⟨ps2, s2'⟩, hp2, h⟩ := M.bind_eq_pure.1 h
  obtain ⟨⟨h1, s1''⟩, hh1, h⟩ := M.bind_eq_pure.1 h
  obtain ⟨⟨h2, s2''⟩, hh2, h⟩ := M.bind_eq_pure.1 h
  have hbegin : ∀ g, expandAt hash a im seen (readTab a f gr) (queryTab a f gq) g ps = (do
      let (status, g) ← saveAt hash a seen (queryTab a f gq) g cnf h1 h2
      let ps := { ps2 with gdb := g }
      let ps ← if status = .success then do
          let q ← enqueueUnique ps.queue s1''
          let q ← enqueueUnique q s2''
          pure { ps with queue := q }
        else pure ps
      pure (if s1''.value ≠ none ∧ s2''.value ≠ none then { ps with leaves := ps.leaves ++ [cnf.id] } else ps)) := by
    intro g
    unfold expandAt
    rw [hpop]
    simp only [M.pure_bind, hg, hp1, hp2, hh1, hh2]
  have hgh : cnf.getHash hash false = pure (hid hash x, { x with computedHash := some (hid hash x) }) := by
    rcases hcnf with rfl | rfl
    · exact getHash_shape hash hx.1 hc
    · unfold getHash; rfl
  have hb : ({ x with computedHash := some (hid hash x) } : SetObj H).toStr = pure (bodyStr x.clauses) :=
    toStr_ok hx.1.sto.value hx.1.sto.ne
  obtain ⟨nv, hnv⟩ := numOfVars_shape hx.1.sto
  have hn2 : numOfVars ({ x with computedHash := some (hid hash x) } : SetObj H) = pure nv := by rw [← hnv]; rfl
  have hsx : saveX hash a f seen gq gw cnf h1 h2 = pure (if wants a seen (queryTab a f gq) (hid hash x) = true then
      (DbStatus.uniqueViolation, if f.stored then (gw.insertRow (hid hash x) (mkRow x h1 h2 nv)).2 else gw) else (.success, gw)) := by
    unfold saveX
    rw [hgh]
    simp only [M.pure_bind, hn2, hb, isSetInGdbX_eq]
    unfold wants queryTab insertRowX
    rw [hf]
    simp only [if_true]
    generalize (a.useGlobalDb && !isSetInGdb a seen (if (a.gdbNoMem && f.existsWrite) = true then [] else gq) (hid hash x)) = b
    cases b <;> rfl
  have hsa : ∀ g, saveAt hash a seen (queryTab a f gq) g cnf h1 h2 = pure (if wants a seen (queryTab a f gq) (hid hash x) = true then
      g.insertRow (hid hash x) (mkRow x h1 h2 nv) else (.success, g)) := by
    intro g
    unfold saveAt
    rw [hgh]
    simp only [M.pure_bind, hn2, hb]
    unfold wants
    split <;> rfl
  rw [hsx, M.pure_bind] at h
  rw [hbegin, hbegin]
  simp only [hsa, M.pure_bind]
  cases hwt : wants a seen (queryTab a f gq) (hid hash x) with
  | true =>
    rw [hwt] at h
    have hv : ∀ r : Row H, gw'.insertRow (hid hash x) r = (.uniqueViolation, gw') := by
      intro r; unfold Gdb.insertRow; rw [if_pos hw]
    simp only [if_true, reduceCtorEq, if_false, M.pure_bind, hv] at h ⊢
    refine ⟨_, rfl, ?_, ?_⟩
    · rw [← (M.pure_inj _ _).1 h]
      split <;> rfl
    · cases hst : f.stored with
      | false =>
        left
        rw [hst] at h
        rw [← (M.pure_inj _ _).1 h]
        split <;> simp
      | true =>
        right
        intro p'' h''
        rw [hst] at h
        have e1 : p.gdb = (gw.insertRow (hid hash x) (mkRow x h1 h2 nv)).2 := by
          rw [← (M.pure_inj _ _).1 h]
          split <;> simp
        rw [e1]
        generalize gw.insertRow (hid hash x) (mkRow x h1 h2 nv) = t at h''
        split at h''
        · obtain ⟨_, _, h''⟩ := M.bind_eq_pure.1 h''
          obtain ⟨_, _, h''⟩ := M.bind_eq_pure.1 h''
          rw [← (M.pure_inj _ _).1 h'']
          split <;> rfl
        · rw [← (M.pure_inj _ _).1 h'']
          split <;> rfl
  | false =>
    rw [hwt] at h
    simp only [if_true, Bool.false_eq_true, if_false] at h ⊢
    obtain ⟨q1, hq1, h⟩ := M.bind_eq_pure.1 h
    obtain ⟨q2, hq2, h⟩ := M.bind_eq_pure.1 h
    simp only [hq1, hq2, M.pure_bind]
    refine ⟨_, rfl, ?_, Or.inl ?_⟩
    · rw [← (M.pure_inj _ _).1 h]
      split <;> rfl
    · rw [← (M.pure_inj _ _).1 h]
      split <;> rfl

/-- The verdict after a pass is right if it was before. -/
theorem Pass.flags {R F0 : Cnf} (hw : Wf F0) {seen : List H} {gq gw : Gdb H} {ps ps' : PS H} {x : SetObj H} {l : List (SetObj H)}
    (hxb : Below F0 (raws x.clauses)) {k1 k2 : Kid H} {n1 n2 : List (SetObj H)} {ps0 ps1 ps2 : PS H} {nv : Nat}
    (hp : Pass hash a seen gq gw R x l ps ps' k1 k2 n1 n2 ps0 ps1 ps2 nv) (hfl : ProcFlags R F0 ps) : ProcFlags R F0 ps' := by
  have hstart : ps0.isSat = ps.isSat ∧ ps0.solution = ps.solution := by rw [hp.start]; exact ⟨rfl, rfl⟩
  obtain ⟨v1, v2, v3, v4, v5⟩ := hp.step1.flags hash hp.kid1 (by rw [hstart.1, hstart.2]; exact hfl.both)
    (by rw [hstart.2]; exact hfl.sol)
  obtain ⟨u1, u2, u3, u4, u5⟩ := hp.step2.flags hash hp.kid2 v1 v2
  have hend : ps'.isSat = ps2.isSat ∧ ps'.solution = ps2.solution := by rw [hp.final]; exact ⟨rfl, rfl⟩
  refine ⟨by rw [hend.1, hend.2]; exact u1, by rw [hend.2]; exact u2, ?_⟩
  intro hs
  rw [hend.1] at hs
  have htrue : ∀ (k : Kid H) (b : Bool), KidFor hash R x b k → k.value = some true → Satisfiable F0 := by
    intro k b hk hv
    apply hxb.sat hw
    apply sat_of_sub (b := b)
    have := (hk.t hv).1
    rw [sub_eq] at this
    rw [this]
    exact ⟨fun _ => true, fun c hc => by simp at hc⟩
  rcases u5 hs with hs | hs
  · rcases v5 hs with hs | hs
    · rw [hstart.1] at hs; exact hfl.sat hs
    · exact htrue _ _ hp.kid1 hs
  · exact htrue _ _ hp.kid2 hs

/-- The work left after a pass. -/
theorem Pass.work_lt {R : Cnf} {seen : List H} {gq gw : Gdb H} {ps ps' : PS H} {x : SetObj H} {l : List (SetObj H)}
    (hxi : GItem R x) {k1 k2 : Kid H} {n1 n2 : List (SetObj H)} {ps0 ps1 ps2 : PS H} {nv : Nat}
    (hp : Pass hash a seen gq gw R x l ps ps' k1 k2 n1 n2 ps0 ps1 ps2 nv) (dup : Bool) :
    work [l ++ queued a dup (n1 ++ n2)] < work [x :: l] := by
  have hsub : work [queued a dup (n1 ++ n2)] ≤ work [n1 ++ n2] := by
    unfold queued
    split
    · simp [work]
    · simp [work, List.map_map, Function.comp_def, raws_store]
  have hkid : ∀ {k : Kid H} {b : Bool} {p p' : PS H} {n : List (SetObj H)}, KidFor hash R x b k →
      GChild (hid hash x) k p p' n → 3 * work [n] ≤ 3 ^ size (raws x.clauses) := by
    intro k b p p' n hk hg
    rcases hg.news with rfl | ⟨rfl, hv⟩
    · simp [work]
    · obtain ⟨_, _, ⟨mode, hN⟩, _⟩ := hk.n hv
      have h1 : size (raws k.item.clauses) < size (raws x.clauses) := by
        rw [hN.size]
        exact size_branch_lt (pivot_mem_of_wf hxi.1.wf)
      simp only [work, List.map_cons, List.map_nil, List.sum_cons, List.sum_nil, Nat.add_zero]
      rw [← Nat.pow_succ']
      exact Nat.pow_le_pow_right (by omega) h1
  have a1 := hkid hp.kid1 hp.step1
  have a2 := hkid hp.kid2 hp.step2
  have a3 : work [n1 ++ n2] = work [n1] + work [n2] := by simp [work]
  have a4 : work [l ++ queued a dup (n1 ++ n2)] = work [l] + work [queued a dup (n1 ++ n2)] := by simp [work]
  have a5 : work [x :: l] = 3 ^ size (raws x.clauses) + work [l] := by simp [work]
  have a6 : 0 < 3 ^ size (raws x.clauses) := Nat.pow_pos (by omega)
  omega

/-- The table after a pass: the earlier rows, and right ones. -/
theorem Pass.table {R F0 : Cnf} (hR : Proper R) {T : Str → Prop} (hbelow : ∀ G, Below F0 G → T (textOf G))
    {seen : List H} {gr gq gw : Gdb H} {ps ps' : PS H} {x : SetObj H} {l : List (SetObj H)}
    (hxi : GItem R x) (hxb : Below F0 (raws x.clauses)) (hle : Gdb.le gr gw)
    {k1 k2 : Kid H} {n1 n2 : List (SetObj H)} {ps0 ps1 ps2 : PS H} {nv : Nat}
    (hp : Pass hash a seen gq gw R x l ps ps' k1 k2 n1 n2 ps0 ps1 ps2 nv)
    (hor : Computed hash a im R x k1 k2 ∨
        (a.useGlobalDb = true ∧ isSetInGdb a seen gr (hid hash x) = true ∧ Pulled hash gr x k1 k2))
    (htab : TableSound hash gw) (htabS : ∀ h r, Dict.get? gw h = some r → T r.body) :
    TableSound hash ps'.gdb ∧ (∀ h r, Dict.get? ps'.gdb h = some r → T r.body) ∧
      ∀ k r, Dict.get? gw k = some r → Dict.get? ps'.gdb k = some r := by
  have hgdb : ps'.gdb = if wants a seen gq (hid hash x) then (gw.insertRow (hid hash x)
      { body := bodyStr x.clauses, cid1 := k1.dig, cid2 := k2.dig, numClauses := x.clauses.length, numVars := nv }).2 else gw := by
    rw [hp.final]
  rw [hgdb]
  split
  · next hw =>
    unfold Gdb.insertRow
    split
    · exact ⟨htab, htabS, fun _ _ h => h⟩
    · next hc =>
      have hcomp : Computed hash a im R x k1 k2 := by
        rcases hor with h | ⟨_, _, r, hr, _⟩
        · exact h
        · obtain ⟨r', hr', _⟩ := hle _ _ hr
          exact absurd ((Dict.mem_keys_iff _ _).1 (Dict.mem_keys_of_get? hr')) hc
      refine ⟨?_, ?_, ?_⟩
      · intro k r hr
        by_cases e : hid hash x = k
        · subst e
          rw [Dict.get?_set_self] at hr
          rw [← Option.some.inj hr]
          exact ⟨im, hcomp.row hash a im hR hp.nv⟩
        · rw [Dict.get?_set_ne _ _ e] at hr
          exact htab k r hr
      · intro k r hr
        by_cases e : hid hash x = k
        · subst e
          rw [Dict.get?_set_self] at hr
          rw [← Option.some.inj hr]
          show T (bodyStr x.clauses)
          rw [bodyStr_text hxi.1.sto.cne]
          exact hbelow _ hxb
        · rw [Dict.get?_set_ne _ _ e] at hr
          exact htabS k r hr
      · intro k r hr
        rw [Dict.get?_set_ne]
        · exact hr
        · rintro rfl
          exact hc ((Dict.mem_keys_iff _ _).1 (Dict.mem_keys_of_get? hr))
  · exact ⟨htab, htabS, fun _ _ h => h⟩

/-- What stays fixed during a run with faults. -/
structure FCtx (F0 : Cnf) (T : Str → Prop) : Prop where
  wf : Wf F0
  clash : NoClash hash T
  t : T ['T']
  f : T ['F']
  below : ∀ G, Below F0 G → T (textOf G)

/-- One pass with failing statements. -/
theorem expandX_step {R F0 : Cnf} (hR : Proper R) {T : Str → Prop} (hC : FCtx hash F0 T) {f : PassFaults} {seen : List H}
    {gr gq gw : Gdb H} {ps p : PS H} {x : SetObj H} {l : List (SetObj H)} (hpi : ProcInv hash a R F0 ps (x :: l))
    (hle : Gdb.le gr gw) (htab : TableSound hash gw) (htabS : ∀ h r, Dict.get? gw h = some r → T r.body)
    (hfl : ProcFlags R F0 ps) (he : expandX hash a f im seen gr gq gw ps = pure p) :
    (∃ l', ProcInv hash a R F0 p l' ∧ work [l'] < work [x :: l]) ∧ ProcFlags R F0 p ∧
    TableSound hash p.gdb ∧ (∀ h r, Dict.get? p.gdb h = some r → T r.body) ∧
      ∀ k r, Dict.get? gw k = some r → Dict.get? p.gdb k = some r := by
  obtain ⟨⟨hxi, hxb, hxp, hxid, hxc⟩, hxn⟩ := hpi.items x (by simp)
  have hle1 : Gdb.le (readTab a f gr) gw := readTab_le a hle
  have hTx : Texts T (readTab a f gr) x := ⟨hC.t, hC.f, fun k r hr => by
      obtain ⟨r', hr', e, _⟩ := hle1 k r hr
      rw [← e]; exact htabS _ _ hr', hC.below _ hxb,
    fun _ _ _ h1 h2 hN => hC.below _ (Below.child hxb h1 h2 hN)⟩
  have hin : getChildrenFromGdb hash (readTab a f gr) (hid hash x) ≠ none → Dict.contains gw (hid hash x) = true := by
    intro h
    unfold getChildrenFromGdb Gdb.getChildren at h
    match hr : Dict.get? (readTab a f gr) (hid hash x) with
    | none => rw [hr] at h; simp at h
    | some r => exact hle1.contains ((Dict.mem_keys_iff _ _).1 (Dict.mem_keys_of_get? hr))
  have hpass := fun {gw' p' : _} (hw : Dict.contains gw (hid hash x) = true → Dict.contains gw' (hid hash x) = true)
      (he : expandAt hash a im seen (readTab a f gr) (queryTab a f gq) gw' ps = pure p') =>
    expandAt_pass' hash a im seen hR hpi.rep hxi
      (by rw [hpi.db]; exact hxp) hxid hxn (by rw [hpi.db]; exact hpi.rows) hxc hC.clash (hle1.sound hash htab) hTx
      (fun _ h => Or.inr (hw (hin h))) he
  cases hf : f.insert with
  | false =>
    rw [expandX_eq hash a im hf] at he
    obtain ⟨k1, k2, n1, n2, ps0, ps1, ps2, nv, hp, hor⟩ := hpass id he
    exact ⟨⟨_, (hpi.pass hash a hp).1, hp.work_lt hash a hxi _⟩, hp.flags hash a hC.wf hxb hfl,
      hp.table hash a im hR hC.below hxi hxb hle1 hor htab htabS⟩
  | true =>
    obtain ⟨gw', hgw'⟩ : ∃ gw' : Gdb H, gw' = Dict.set gw (hid hash x) (mkRow x (hid hash x) (hid hash x) 0) := ⟨_, rfl⟩
    have hc' : Dict.contains gw' (hid hash x) = true := by
      rw [hgw']; exact (Dict.mem_keys_iff _ _).1 (Dict.mem_keys_of_get? (Dict.get?_set_self _ _ _))
    obtain ⟨p', he', ep, hg⟩ := expandX_insert hash a im hf hpi.rep hxi hxc hc' he
    obtain ⟨k1, k2, n1, n2, ps0, ps1, ps2, nv, hp, hor⟩ := hpass (fun _ => hc') he'
    have hpi' := (hpi.pass hash a hp).1
    have hfl' := hp.flags hash a hC.wf hxb hfl
    have hwl := hp.work_lt hash a hxi (wants a seen (queryTab a f gq) (hid hash x) && Dict.contains gw' (hid hash x))
    refine ⟨⟨_, ?_, hwl⟩, ?_, ?_⟩
    · rw [ep]; exact ⟨hpi'.rep, hpi'.db, hpi'.rows, hpi'.items, hpi'.ids⟩
    · rw [ep]; exact ⟨hfl'.both, hfl'.sol, hfl'.sat⟩
    · rcases hg with hg | hg
      · rw [hg]; exact ⟨htab, htabS, fun _ _ h => h⟩
      · obtain ⟨p'', he''⟩ := expandAt_progress hash a im seen (gw := gw) hR hpi.rep hxi
          (by rw [hpi.db]; exact hxp) hxid hxn (by rw [hpi.db]; exact hpi.rows) hxc hC.clash (hle1.sound hash htab) hTx
          (fun _ h => Or.inr (hin h)) he'
        rw [hg p'' he'']
        obtain ⟨k1, k2, n1, n2, ps0, ps1, ps2, nv, hp, hor⟩ := hpass id he''
        exact hp.table hash a im hR hC.below hxi hxb hle1 hor htab htabS

/-- Invariant of the processes and their table, with faults. -/
structure FaultInv (R F0 : Cnf) (T : Str → Prop) (g0 : Gdb H) (S : Shared H) (L : List (List (SetObj H))) : Prop where
  procs : List.Forall₂ (ProcInv hash a R F0) S.procs L
  table : TableSound hash S.gdb
  tabS : ∀ h r, Dict.get? S.gdb h = some r → T r.body
  old : ∀ k r, Dict.get? g0 k = some r → Dict.get? S.gdb k = some r
  flags : ∀ ps ∈ S.procs, ProcFlags R F0 ps

theorem forall2_eraseIdx {α β : Type} {r : α → β → Prop} {l : List α} {m : List β} (h : List.Forall₂ r l m) :
    ∀ i, List.Forall₂ r (l.eraseIdx i) (m.eraseIdx i) := by
  induction h with
  | nil => intro i; simp
  | cons h1 h2 ih =>
    intro i
    cases i with
    | zero => simpa using h2
    | succ i => simpa using ⟨h1, ih i⟩

theorem work_eraseIdx (L : List (List (SetObj H))) (i : Nat) : work (L.eraseIdx i) ≤ work L := by
  induction L generalizing i with
  | nil => simp
  | cons l L ih =>
    cases i with
    | zero => simp [work]
    | succ i =>
      have := ih i
      simp only [List.eraseIdx_cons_succ, work, List.map_cons, List.sum_cons] at this ⊢
      omega

theorem Faulty.inv {R : Cnf} (hR : Proper R) {s : SetObj H} {T : Str → Prop} (hC : FCtx hash (raws s.clauses) T)
    (hitem : SItem hash a R (raws s.clauses) s) {g0 : Gdb H} (htab : TableSound hash g0)
    (htabS : ∀ h r, Dict.get? g0 h = some r → T r.body) {seen : List H} {n : Nat} {S : Shared H}
    (h : Faulty hash a im seen g0 s n S) :
    ∃ L, FaultInv hash a R (raws s.clauses) T g0 S L ∧ n + work L ≤ 3 ^ size (raws s.clauses) := by
  induction h with
  | start ps h0 =>
    obtain ⟨y, hy, _, _, er, _⟩ := ProcInv.init hash a hitem h0
    refine ⟨[[y]], ⟨List.Forall₂.cons hy List.Forall₂.nil, htab, htabS, fun _ _ h => h, ?_⟩, ?_⟩
    · intro p hp
      rw [List.mem_singleton] at hp
      subst hp
      exact initPS_flags hash a h0
    · simp [work, er]
  | @run n S _ i ps ps' f gr gq hi hgr hgq hgo he ih =>
    obtain ⟨L, hI, hw⟩ := ih
    obtain ⟨l0, hL, hpi⟩ := forall2_get hI.procs hi
    have hsz : l0 ≠ [] := by
      rintro rfl
      unfold keepGoing Queue.isEmpty at hgo
      rw [hpi.rep.size] at hgo
      simp at hgo
    obtain ⟨x, l, rfl⟩ := List.exists_cons_of_ne_nil hsz
    obtain ⟨⟨l', hpi', hlt⟩, hfl', t1, t2, t3⟩ := expandX_step hash a im hR hC hpi hgr hI.table hI.tabS
      (hI.flags ps (List.mem_of_getElem? hi)) he
    refine ⟨L.set i l', ⟨forall2_set hI.procs hpi' i, t1, t2, fun k r hr => t3 k r (hI.old k r hr), ?_⟩, ?_⟩
    · intro q hq
      rcases List.mem_or_eq_of_mem_set hq with hq | rfl
      · exact hI.flags q hq
      · exact hfl'
    · have := work_set (l' := l') hL
      omega
  | @spawn n S _ i ps nodes q news hi hpop hnew ih =>
    obtain ⟨L, hI, hw⟩ := ih
    obtain ⟨l, hL, hpi⟩ := forall2_get hI.procs hi
    obtain ⟨q', hq, hrep, hdb, htab'⟩ := popMany_table l ps.queue hpi.rep
    rw [hpi.rep.size, hq] at hpop
    have e := (M.pure_inj _ _).1 hpop
    simp only [Prod.mk.injEq] at e
    obtain ⟨rfl, rfl⟩ := e
    obtain ⟨L2, h1, h2, h3, h4, h5⟩ := init_all hash a (fun x hx => (hpi.items x hx).1) hnew
    have hp' : ProcInv hash a R (raws s.clauses) { ps with queue := q' } [] :=
      ⟨hrep, by rw [← hpi.db]; exact hdb, by intro hu; show ∀ k ∈ q'.table.rows.keys, _; rw [htab']; exact hpi.rows hu, by simp, by simp⟩
    refine ⟨L.set i [] ++ L2, ⟨List.rel_append (forall2_set hI.procs hp' i) h1, hI.table, hI.tabS, hI.old, ?_⟩, ?_⟩
    · intro p hp
      rcases List.mem_append.1 hp with hp | hp
      · rcases List.mem_or_eq_of_mem_set hp with hp | rfl
        · exact hI.flags p hp
        · have := hI.flags ps (List.mem_of_getElem? hi)
          exact ⟨this.both, this.sol, this.sat⟩
      · obtain ⟨x, _, hx⟩ := forall2_mem_right hnew hp
        exact initPS_flags hash a hx
    · have hws := work_set (l' := []) hL
      rw [work_append, h4]
      have : work [([] : List (SetObj H))] = 0 := by simp [work]
      omega
  | @die n S _ i ih =>
    obtain ⟨L, hI, hw⟩ := ih
    refine ⟨L.eraseIdx i, ⟨forall2_eraseIdx hI.procs i, hI.table, hI.tabS, hI.old,
      fun p hp => hI.flags p (List.mem_of_mem_eraseIdx hp)⟩, ?_⟩
    have := work_eraseIdx L i
    omega

end NDP
