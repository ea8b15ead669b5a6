import Verif.Proofs.GRun
/- A `-gdb` run of one process on a table that has none of the nodes it meets: the same as a run without the table,
except that every expanded node gets its row. -/
namespace NDP
open Spec SetObj
variable {H : Type} [DecidableEq H] (hash : Str → H) (a : Args) (im : Mode)

/-- The same options without the global table. -/
def loc : Args := { a with useGlobalDb := false, gdbNoMem := false }

/-- Lines 344-373. -/
def childTail (pid : Option H) (ps : PS H) (child : SetObj H) : M (PS H × SetObj H) := do
  let _ ← child.toStr
  let (_, child) ← child.getHash hash false
  match child.status, child.id with
  | some .unique, some cid => do
    let nc := ps.nodesChildren.set cid []
    let nc ← appendChild nc pid cid
    pure ({ ps with uniques := ps.uniques + 1, nodesChildren := nc }, child)
  | some .redundant, some cid => do
    let nc ← appendChild ps.nodesChildren pid cid
    pure ({ ps with redundantHits := ps.redundantHits + 1,
                    redundantIds := if cid ∈ ps.redundantIds then ps.redundantIds else ps.redundantIds ++ [cid],
                    nodesChildren := nc }, child)
  | _, _ => pure ({ ps with isSat := ps.isSat || (child.value == some true) }, child)

theorem childTail_set {pid : Option H} {ps ps' : PS H} {ch c' : SetObj H} (g : Gdb H)
    (h : childTail hash pid ps ch = pure (ps', c')) :
    childTail hash pid { ps with gdb := g } ch = pure ({ ps' with gdb := g }, c') := by
  unfold childTail at h ⊢
  obtain ⟨_, e1, h⟩ := M.bind_eq_pure.1 h
  obtain ⟨⟨_, c2⟩, e2, h⟩ := M.bind_eq_pure.1 h
  rw [e1, M.pure_bind, e2, M.pure_bind]
  simp only at h ⊢
  split at h
  · obtain ⟨_, e3, h⟩ := M.bind_eq_pure.1 h
    have := (M.pure_inj _ _).1 h
    simp only [Prod.mk.injEq] at this
    simp only [*, M.pure_bind]
    rw [← this.1, ← this.2]
  · obtain ⟨_, e3, h⟩ := M.bind_eq_pure.1 h
    have := (M.pure_inj _ _).1 h
    simp only [Prod.mk.injEq] at this
    simp only [*, M.pure_bind]
    rw [← this.1, ← this.2]
  · have := (M.pure_inj _ _).1 h
    simp only [Prod.mk.injEq] at this
    rw [← this.1, ← this.2]

theorem processChild_set {pl : Bool} {pid : Option H} {ps ps' : PS H} {ch c' : SetObj H} (g : Gdb H)
    (h : processChild hash a im pl pid ps ch = pure (ps', c')) :
    processChild hash a im pl pid { ps with gdb := g } ch = pure ({ ps' with gdb := g }, c') := by
  unfold processChild at h ⊢
  obtain ⟨_, e1, h⟩ := M.bind_eq_pure.1 h
  rw [e1, M.pure_bind]
  simp only at h ⊢
  split at h
  · rw [M.pure_bind] at h ⊢
    have h' := childTail_set hash g (pid := pid) h
    rw [← h']
    unfold childTail
    split <;> rfl
  · rename_i hv
    cases pl
    · simp only [Bool.not_false, if_true] at h ⊢
      obtain ⟨c1, e2, h⟩ := M.bind_eq_pure.1 h
      obtain ⟨d1, e3, h⟩ := M.bind_eq_pure.1 h
      obtain ⟨c2, e4, h⟩ := M.bind_eq_pure.1 h
      obtain ⟨⟨d, c3⟩, e5, h⟩ := M.bind_eq_pure.1 h
      rw [e2, M.pure_bind, e3, M.pure_bind, e4, M.pure_bind, e5, M.pure_bind]
      rw [M.pure_bind] at h ⊢
      exact childTail_set hash g (pid := pid) h
    · simp only [Bool.not_true, Bool.false_eq_true, if_false] at h ⊢
      obtain ⟨c2, e4, h⟩ := M.bind_eq_pure.1 h
      obtain ⟨⟨d, c3⟩, e5, h⟩ := M.bind_eq_pure.1 h
      rw [e4, M.pure_bind, e5, M.pure_bind]
      rw [M.pure_bind] at h ⊢
      exact childTail_set hash g (pid := pid) h

/-- One pass on a node the table does not have. -/
theorem expand_fresh (seen : List H) {ps ps' : PS H} {x : SetObj H} {q : Queue H} (hpop : ps.queue.pop = pure (x, q))
    (hx : Shape x) (hc : x.computedHash = some (hid hash x) ∨ x.computedHash = none)
    (hg : a.useGlobalDb = true) (hin : isSetInGdb a seen ps.gdb (hid hash x) = false) (hnew : hid hash x ∉ Dict.keys ps.gdb)
    (g : Gdb H) (h : expand hash (loc a) im [] { ps with gdb := g } = pure ps') :
    ∃ row, expand hash a im seen ps = pure { ps' with gdb := Dict.set ps.gdb (hid hash x) row } ∧ ps'.gdb = g ∧
      row.numClauses = x.clauses.length ∧ row.uniqueNodes = 0 ∧ row.redundantTimes = 0 := by
  obtain ⟨nv, hnv⟩ := numOfVars_shape hx.sto
  unfold expand at h ⊢
  simp only [hpop, M.pure_bind] at h ⊢
  have hgc : ∀ r, getChildren hash (loc a) [] g x = pure r →
      getChildren hash a seen ps.gdb x = pure (r.1, r.2.1, false, { x with computedHash := some (hid hash x) }) ∧
      r.2.2.1 = false ∧ r.2.2.2 = x := by
    intro r hr
    unfold getChildren at hr ⊢
    rw [if_neg (by simp [loc])] at hr
    rw [if_pos hg, getHash_shape hash hx hc]
    obtain ⟨o, e, hr⟩ := M.bind_eq_pure.1 hr
    have he : ({ x with computedHash := some (hid hash x) } : SetObj H).evaluate = pure o := by rw [← e]; rfl
    simp only [M.pure_bind, hin, Bool.false_eq_true, if_false, he]
    match o, hr with
    | none, hr => exact absurd hr (M.raise_ne_pure _ _)
    | some (s1, s2), hr =>
      have := (M.pure_inj _ _).1 hr
      rw [← this]
      exact ⟨rfl, rfl, rfl⟩
  obtain ⟨⟨s1, s2, pl, x'⟩, e1, h'⟩ := M.bind_eq_pure.1 h
  clear h
  obtain ⟨f1, f2, f3⟩ := hgc _ e1
  simp only at f1 f2 f3 h'
  subst f2 f3
  have h := h'
  clear h'
  rw [f1, M.pure_bind]
  simp only [Bool.false_eq_true, if_false] at h ⊢
  obtain ⟨⟨p1, t1⟩, e2, h⟩ := M.bind_eq_pure.1 h
  have f2 : processChild hash a im false x'.id { ps with queue := q } s1 = pure ({ p1 with gdb := ps.gdb }, t1) :=
    processChild_set hash a im ps.gdb (ps := { ps with queue := q, gdb := g }) e2
  have e2' := processChild_gdb hash _ im e2
  rw [f2, M.pure_bind]
  simp only at h ⊢
  obtain ⟨⟨p2, t2⟩, e3, h⟩ := M.bind_eq_pure.1 h
  have f3 : processChild hash a im false x'.id { p1 with gdb := ps.gdb } s2 = pure ({ p2 with gdb := ps.gdb }, t2) :=
    processChild_set hash a im ps.gdb e3
  have e3' := processChild_gdb hash _ im e3
  rw [f3, M.pure_bind]
  simp only at h ⊢
  obtain ⟨⟨h1, u1⟩, e4, h⟩ := M.bind_eq_pure.1 h
  obtain ⟨⟨h2, u2⟩, e5, h⟩ := M.bind_eq_pure.1 h
  rw [e4, M.pure_bind, e5, M.pure_bind]
  simp only at h ⊢
  have gh : ({ x' with computedHash := some (hid hash x') } : SetObj H).getHash hash false =
      pure (hid hash x', { x' with computedHash := some (hid hash x') }) := by unfold getHash; rfl
  have hb : ({ x' with computedHash := some (hid hash x') } : SetObj H).toStr = pure (bodyStr x'.clauses) :=
    toStr_ok hx.sto.value hx.sto.ne
  have hn2 : numOfVars ({ x' with computedHash := some (hid hash x') } : SetObj H) = pure nv := by rw [← hnv]; rfl
  have hs1 : saveParentChildren hash (loc a) [] p2.gdb x' h1 h2 = pure (.success, p2.gdb) := by
    unfold saveParentChildren
    rw [getHash_shape hash hx hc]
    simp only [M.pure_bind, hn2]
    rw [if_neg (by simp [loc])]
  have hs2 : saveParentChildren hash a seen ps.gdb { x' with computedHash := some (hid hash x') } h1 h2 =
      pure (.success, Dict.set ps.gdb (hid hash x') { body := bodyStr x'.clauses, cid1 := h1, cid2 := h2, numClauses := x'.clauses.length, numVars := nv }) := by
    unfold saveParentChildren
    rw [gh]
    simp only [M.pure_bind, hn2, hb]
    rw [if_pos (by simp [hg, hin])]
    unfold Gdb.insertRow
    rw [if_neg]
    intro hcon
    apply hnew
    rw [Dict.mem_keys_iff]
    exact hcon
  rw [hs1, M.pure_bind] at h
  rw [hs2, M.pure_bind]
  simp only [if_true] at h ⊢
  obtain ⟨q1, e7, h⟩ := M.bind_eq_pure.1 h
  obtain ⟨q2, e8, h⟩ := M.bind_eq_pure.1 h
  rw [e7, M.pure_bind, e8, M.pure_bind]
  have h := (M.pure_inj _ _).1 h
  subst h
  refine ⟨{ body := bodyStr x'.clauses, cid1 := h1, cid2 := h2, numClauses := x'.clauses.length, numVars := nv }, ?_, ?_, rfl, rfl, rfl⟩
  · congr 1
    split <;> rfl
  · have : p2.gdb = g := by rw [e3', e2']
    split <;> exact this

theorem Inv.setGdb {im : Mode} {R : Cnf} {s0 : SetObj H} {root : H} {ps : PS H} {l : List (SetObj H)}
    (h : Inv hash a im R s0 root ps l) (g : Gdb H) : Inv hash a im R s0 root { ps with gdb := g } l :=
  ⟨h.rep, h.db, h.rows, h.items, h.ids, h.done, h.sat, h.sol, h.rootMem, h.reach, h.nd⟩

/-- The state of a run on a fresh table, next to the state of the local run. -/
structure FInv (R : Cnf) (s : SetObj H) (g : Gdb H) (ps : PS H) (l : List (SetObj H)) : Prop where
  inv : Inv hash (loc a) im R s (hid hash s) ps l
  keys : ∀ k ∈ Dict.keys ps.gdb, k ∈ Dict.keys g ∨ (k ∈ ps.nodesChildren.keys ∧ k ∉ l.map (hid hash))
  rows : ∀ k ∈ ps.nodesChildren.keys, k ∉ l.map (hid hash) → k ∈ Dict.keys ps.gdb
  root : (ps.isSat = false ∧ l = [store a.useRuntimeDb s]) ∨
    ∃ r, Dict.get? ps.gdb (hid hash s) = some r ∧ r.numClauses = s.clauses.length
  old : ∀ k r, Dict.get? g k = some r → Dict.get? ps.gdb k = some r
  marks : ∀ p ∈ ps.gdb, p ∈ g ∨ p.2.uniqueNodes = 0 ∧ p.2.redundantTimes = 0

/-- What a finished run on a fresh table looks like. -/
structure FreshRun (s : SetObj H) (g : Gdb H) (ps : PS H) (g' : Gdb H) : Prop where
  keys : ∀ k ∈ Dict.keys g', k ∈ Dict.keys g ∨ k ∈ ps.nodesChildren.keys
  rows : ¬ (a.exitUponSolving = true ∧ ps.isSat = true) → ∀ k ∈ ps.nodesChildren.keys, k ∈ Dict.keys g'
  root : ∃ r, Dict.get? g' (hid hash s) = some r ∧ r.numClauses = s.clauses.length
  old : ∀ k r, Dict.get? g k = some r → Dict.get? g' k = some r
  marks : ∀ p ∈ g', p ∈ g ∨ p.2.uniqueNodes = 0 ∧ p.2.redundantTimes = 0

theorem FInv.step {R : Cnf} (hR : Proper R) {s : SetObj H} (hs : Ready hash (loc a) R s) {g : Gdb H}
    (hfresh : ∀ x, Met hash (loc a) im s x → hid hash x ∉ Dict.keys g) {seen : List H}
    (hseen : a.gdbNoMem = false → ∀ k ∈ seen, k ∈ Dict.keys g) (hg : a.useGlobalDb = true)
    {ps : PS H} {x : SetObj H} {l : List (SetObj H)} (h : FInv hash a im R s g ps (x :: l)) :
    ∃ ps' l', expand hash a im seen ps = pure ps' ∧ FInv hash a im R s g ps' l' ∧ weight l' < weight (x :: l) ∧
      expand hash (loc a) im [] { ps with gdb := g } = pure { ps' with gdb := g } := by
  have hinv := h.inv.setGdb hash (loc a) g
  obtain ⟨ps', l', e1, e2, e3, e4, e5, _, _, ids, i1, i2, i3⟩ := hinv.step' hash (loc a) im rfl [] hR
  obtain ⟨b1, b2, b3, b4, b5⟩ := h.inv.items x (by simp)
  have hnew : hid hash x ∉ Dict.keys ps.gdb := by
    intro hm
    rcases h.keys _ hm with hm | ⟨_, hm⟩
    · exact hfresh x b2 hm
    · exact hm (by simp)
  have hin : isSetInGdb a seen ps.gdb (hid hash x) = false := by
    unfold isSetInGdb
    by_cases hm : a.gdbNoMem = true
    · rw [if_pos hm]
      have := (Dict.get?_eq_none_iff _ _).2 hnew
      simp [Gdb.hashExists, Dict.contains, this]
    · rw [if_neg hm]
      have : hid hash x ∉ seen := fun hm' => hfresh x b2 (hseen (by simpa using hm) _ hm')
      simp [this]
  obtain ⟨q0, hpop, _⟩ := h.inv.rep.pop
  have hcache : x.computedHash = some (hid hash x) ∨ x.computedHash = none := by
    rcases b2.cache hash (loc a) im hR hs with hc | ⟨_, hc⟩
    · exact Or.inl hc
    · exact Or.inr hc
  obtain ⟨row, f1, f2, f3, f4⟩ := expand_fresh hash a im seen hpop b1.shape hcache hg hin hnew g e1
  have hxk : hid hash x ∈ ps.nodesChildren.keys := Dict.mem_keys_of_get? b5
  have hids : hid hash x ∉ l.map (hid hash) ∧ (l.map (hid hash)).Nodup := by
    have := h.inv.ids
    rw [List.map_cons, List.nodup_cons] at this
    exact this
  have hrows : ∀ k ∈ ps'.nodesChildren.keys, k ∉ l'.map (hid hash) → k ∈ Dict.keys (Dict.set ps.gdb (hid hash x) row) := by
    intro k hk hn
    rw [i1] at hn
    rw [Dict.mem_keys_set]
    rcases i3 k hk with hk | hk
    · by_cases e : k = hid hash x
      · exact Or.inl e
      · right
        apply h.rows k hk
        rw [List.map_cons, List.mem_cons]
        rintro (e' | hm)
        · exact e e'
        · exact hn (List.mem_append_left _ hm)
    · exact absurd (List.mem_append_right _ hk) hn
  refine ⟨_, l', f1, ⟨e2.setGdb hash (loc a) _, ?_, ?_, ?_, ?_, ?_⟩, e3, ?_⟩
  · intro k hk
    simp only at hk ⊢
    rw [i1]
    rcases (Dict.mem_keys_set _ _ _ _).1 hk with rfl | hk
    · right
      refine ⟨e4 _ hxk, ?_⟩
      intro hm
      rcases List.mem_append.1 hm with hm | hm
      · exact hids.1 hm
      · exact i2 _ hm hxk
    · rcases h.keys k hk with hk | ⟨h1, h2⟩
      · exact Or.inl hk
      · right
        refine ⟨e4 _ h1, ?_⟩
        intro hm
        rcases List.mem_append.1 hm with hm | hm
        · exact h2 (by simp only [List.map_cons]; exact List.mem_cons_of_mem _ hm)
        · exact i2 _ hm h1
  · exact hrows
  · right
    simp only
    rcases h.root with ⟨_, h0⟩ | ⟨r, h0, h1⟩
    · have hx : x = store a.useRuntimeDb s := (List.cons_eq_cons.1 h0).1
      have hh : hid hash x = hid hash s := by rw [hx]; exact hid_store hash hs.tracks.node _
      refine ⟨row, by rw [hh]; simp, ?_⟩
      have := congrArg List.length (raws_store a.useRuntimeDb s)
      rw [f3, hx]
      simpa [raws] using this
    · refine ⟨r, ?_, h1⟩
      rw [Dict.get?_set_ne, h0]
      intro e
      exact hnew (e ▸ Dict.mem_keys_of_get? h0)
  · intro k r hk
    simp only
    rw [Dict.get?_set_ne, h.old k r hk]
    intro e
    exact hfresh x b2 (e ▸ Dict.mem_keys_of_get? hk)
  · intro p hp
    simp only at hp
    rw [Dict.set_of_not_mem _ _ _ hnew] at hp
    rcases List.mem_append.1 hp with hp | hp
    · exact h.marks p hp
    · right
      rw [List.mem_singleton] at hp
      rw [hp]; exact f4
  · rw [e1]
    congr 1
    rw [← f2]

theorem mainStep_zero (seen : List H) (fails : Nat → Bool) (sched : List Bool) (st : MainSt H) :
    mainStep hash a im seen 0 fails sched st =
      if keepGoing a st.ps then expand hash a im seen st.ps >>= fun ps => pure (.inl { st with ps := ps })
      else pure (.inr st.ps) := by
  unfold mainStep
  split
  · apply M.bind_congr
    intro ps _
    simp
  · rfl

/-- A `-gdb` run of one process on a fresh table finishes, with the result of the run without the table. -/
theorem runMain_fresh {R : Cnf} (hR : Proper R) {s : SetObj H} (hs : Ready hash (loc a) R s) {g : Gdb H}
    (hfresh : ∀ x, Met hash (loc a) im s x → hid hash x ∉ Dict.keys g) {seen : List H}
    (hseen : a.gdbNoMem = false → ∀ k ∈ seen, k ∈ Dict.keys g) (hg : a.useGlobalDb = true)
    (fails : Nat → Bool) (sched : List Bool) :
    ∃ ps g', runMain hash a im seen g 0 fails sched s = pure { ps with gdb := g' } ∧
      runMain hash (loc a) im [] g 0 fails sched s = pure ps ∧ ps.gdb = g ∧ FreshRun hash a s g ps g' := by
  obtain ⟨ps0, h0, hinv, hu, hns, hnc⟩ := initPS_ok hash (loc a) im g 1 hs
  have hne := hs.tracks.ne_nil
  have h0' : initPS hash a g 1 s = pure ps0 := h0
  have hg0 : ps0.gdb = g := by
    unfold initPS at h0
    obtain ⟨⟨_, c⟩, _, h0⟩ := M.bind_eq_pure.1 h0
    obtain ⟨_, _, h0⟩ := M.bind_eq_pure.1 h0
    split at h0
    · exact absurd h0 (M.raise_ne_pure _ _)
    · rw [← (M.pure_inj _ _).1 h0]
  unfold runMain
  rw [h0, h0', M.pure_bind, M.pure_bind]
  obtain ⟨st0, hst0⟩ : ∃ st0 : MainSt H, st0 = { ps := ps0, gen := decide (0 < 0) } := ⟨_, rfl⟩
  rw [← hst0]
  obtain ⟨ps, hrun, l, h1, h2, h3⟩ := pyWhile_totalN (step := mainStep hash a im seen 0 fails sched)
    (fun n st => ∃ l, FInv hash a im R s g st.ps l ∧ weight l = n ∧
      pyWhile (mainStep hash (loc a) im [] 0 fails sched) { st with ps := { st.ps with gdb := g } } =
      pyWhile (mainStep hash (loc a) im [] 0 fails sched) st0)
    (fun ps => ∃ l, FInv hash a im R s g ps l ∧ Stopped a ps l ∧
      pyWhile (mainStep hash (loc a) im [] 0 fails sched) st0 = pure { ps with gdb := g })
    (by
      rintro n st ⟨l, hi, hw, hc⟩
      have hkg : keepGoing (loc a) { st.ps with gdb := g } = keepGoing a st.ps := rfl
      rw [mainStep_zero]
      by_cases hk : NDP.keepGoing a st.ps = true
      · left
        rw [if_pos hk]
        have hk' := hk
        rw [show keepGoing a st.ps = keepGoing (loc a) st.ps from rfl, hi.inv.keepGoing hash (loc a) im hne] at hk'
        match l, hi, hw with
        | [], _, _ => simp at hk'
        | x :: l, hi, hw =>
          obtain ⟨ps', l', e1, e2, e3, e4⟩ := hi.step hash a im hR hs hfresh hseen hg
          refine ⟨{ st with ps := ps' }, weight l', by rw [e1]; rfl, ⟨l', e2, rfl, ?_⟩, by omega⟩
          rw [← hc]
          symm
          apply pyWhile_inl
          rw [mainStep_zero, hkg, if_pos hk, e4]
          rfl
      · right
        rw [if_neg hk]
        refine ⟨st.ps, rfl, l, hi, ?_, ?_⟩
        · rw [show keepGoing a st.ps = keepGoing (loc a) st.ps from rfl, hi.inv.keepGoing hash (loc a) im hne] at hk
          unfold Stopped
          have : (loc a).exitUponSolving = a.exitUponSolving := rfl
          cases l <;> simp_all
        · rw [← hc]
          apply pyWhile_inr
          rw [mainStep_zero, hkg, if_neg hk])
    _ st0 ⟨[store a.useRuntimeDb s], by
      rw [hst0]
      refine ⟨hinv, ?_, ?_, Or.inl ⟨hns, rfl⟩, fun k r hk => by rw [hg0]; exact hk, fun p hp => Or.inl (by rw [← hg0]; exact hp)⟩
      · intro k hk; left; rw [← hg0]; exact hk
      · intro k hk hn
        rw [hnc] at hk
        exfalso
        apply hn
        have : k = hid hash s := by simpa using hk
        simp [this, hid_store hash hs.tracks.node], rfl, by rw [hst0]; simp only; rw [← hg0]⟩
  refine ⟨{ ps with gdb := g }, ps.gdb, by rw [hrun], h3, rfl, ?_, ?_, ?_, h1.old, h1.marks⟩
  · intro k hk
    rcases h1.keys k hk with hk | ⟨hk, _⟩
    · exact Or.inl hk
    · exact Or.inr hk
  · intro hsat k hk
    rcases h2 with rfl | h2
    · exact h1.rows k hk (by simp)
    · exact absurd h2 hsat
  · rcases h1.root with ⟨h4, h5⟩ | h
    · rcases h2 with rfl | h2
      · simp at h5
      · rw [h4] at h2; simp at h2
    · exact h

end NDP
