import Verif.Proofs.Threads
/- Without the thief method normalisation, branching and hence the edges of a node depend only on its clauses. -/
namespace NDP
open Spec SetObj
variable {H : Type}

theorem map_insertBy {α β : Type} (f : α → β) (lt : α → α → Bool) (lt' : β → β → Bool)
    (h : ∀ a b, lt a b = lt' (f a) (f b)) (x : α) (l : List α) :
    (insertBy lt x l).map f = insertBy lt' (f x) (l.map f) := by
  induction l with
  | nil => simp [insertBy]
  | cons y l ih =>
    simp only [insertBy, List.map_cons]
    rw [← h]
    split <;> simp [ih]

theorem map_isort {α β : Type} (f : α → β) (lt : α → α → Bool) (lt' : β → β → Bool)
    (h : ∀ a b, lt a b = lt' (f a) (f b)) (l : List α) : (isort lt l).map f = isort lt' (l.map f) := by
  induction l with
  | nil => rfl
  | cons x l ih =>
    show (insertBy lt x (isort lt l)).map f = insertBy lt' (f x) (isort lt' (l.map f))
    rw [map_insertBy f lt lt' h, ih]

/-- Same clauses, literally, in the same order. -/
def SameRaws (s t : SetObj H) : Prop := raws s.clauses = raws t.clauses

theorem firstNonempty_congr {a b : List Clause} (h : raws a = raws b) : firstNonempty a = firstNonempty b := by
  match a, b, h with
  | [], [], _ => rfl
  | [], _ :: _, h => simp [raws] at h
  | _ :: _, [], h => simp [raws] at h
  | c :: _, d :: _, h =>
    simp only [raws, List.map_cons, List.cons.injEq] at h
    simp [firstNonempty, h.1]

theorem sortByLength_congr {s t : SetObj H} (h : SameRaws s t) : SameRaws s.sortByLength t.sortByLength := by
  unfold SetObj.sortByLength
  rw [firstNonempty_congr h]
  split
  · show raws (isort _ s.clauses) = raws (isort _ t.clauses)
    unfold SameRaws raws at *
    rw [map_isort (fun c : Clause => c.raw) _ (fun a b => decide (a.length < b.length)) (fun _ _ => rfl),
      map_isort (fun c : Clause => c.raw) _ (fun a b => decide (a.length < b.length)) (fun _ _ => rfl), h]
  · exact h

theorem sortClauses_congr {s t : SetObj H} (h : SameRaws s t) : SameRaws s.sortClauses t.sortClauses := by
  unfold SetObj.sortClauses
  rw [firstNonempty_congr h]
  split
  · show raws (isort _ s.clauses) = raws (isort _ t.clauses)
    unfold SameRaws raws at *
    rw [map_isort (fun c : Clause => c.raw) _ clauseLt (fun _ _ => rfl),
      map_isort (fun c : Clause => c.raw) _ clauseLt (fun _ _ => rfl), h]
  · exact h

theorem renameCls_congr (a : List Clause) : ∀ (b : List Clause) (st : RenameSt), raws a = raws b →
    (renameCls st a).1 = (renameCls st b).1 ∧ raws (renameCls st a).2 = raws (renameCls st b).2 := by
  induction a with
  | nil =>
    intro b st h
    match b, h with
    | [], _ => exact ⟨rfl, rfl⟩
    | _ :: _, h => simp [raws] at h
  | cons c a ih =>
    intro b st h
    match b, h with
    | [], h => simp [raws] at h
    | d :: b, h =>
      simp only [raws, List.map_cons, List.cons.injEq] at h
      simp only [renameCls, h.1]
      obtain ⟨e1, e2⟩ := ih b (renameRaw st d.raw).1 h.2
      refine ⟨e1, ?_⟩
      simp only [raws, List.map_cons, List.cons.injEq, true_and]
      exact e2

theorem renameVars_congr {s t s' t' : SetObj H} (h : SameRaws s t) (h1 : s.renameVars = pure s')
    (h2 : t.renameVars = pure t') : SameRaws s' t' := by
  unfold SetObj.renameVars at h1 h2
  simp only at h1 h2
  have cl : ∀ {u u' : SetObj H} {hov : Int}, (if u.finalNamesMap.isEmpty = true then do
        let fnm ← pure (renameCls { } u.clauses).1.names.keys
        pure { u with clauses := sortWithin (renameCls { } u.clauses).2, highestOccurringVar := hov, finalNamesMap := fnm }
      else do
        let fnm ← List.mapM (fun (v : Nat) => pyIndex u.finalNamesMap ((v : Int) - 1)) (renameCls { } u.clauses).1.names.keys
        pure { u with clauses := sortWithin (renameCls { } u.clauses).2, highestOccurringVar := hov, finalNamesMap := fnm } : M (SetObj H)) = pure u' →
      u'.clauses = sortWithin (renameCls { } u.clauses).2 := by
    intro u u' hov hu
    split at hu <;>
    · obtain ⟨_, _, hu⟩ := M.bind_eq_pure.1 hu
      rw [← (M.pure_inj _ _).1 hu]
  obtain ⟨_, _, h1⟩ := M.bind_eq_pure.1 h1
  obtain ⟨_, _, h2⟩ := M.bind_eq_pure.1 h2
  have c1 := cl h1
  have c2 := cl h2
  unfold SameRaws
  rw [c1, c2]
  have e := (renameCls_congr s.clauses t.clauses {} h).2
  unfold SameRaws raws sortWithin at *
  simp only [List.map_map]
  have : ((fun c : Clause => c.raw) ∘ fun c : Clause => { c with raw := sortAbs c.raw }) = sortAbs ∘ fun c => c.raw := rfl
  rw [this, ← List.map_map, ← List.map_map, e]

theorem cond2_congr (a : List Clause) : ∀ (b : List Clause) (m : Nat), raws a = raws b → cond2 m a = cond2 m b := by
  induction a with
  | nil =>
    intro b m h
    match b, h with
    | [], _ => rfl
    | _ :: _, h => simp [raws] at h
  | cons c a ih =>
    intro b m h
    match b, h with
    | [], h => simp [raws] at h
    | d :: b, h =>
      simp only [raws, List.map_cons, List.cons.injEq] at h
      simp only [cond2, h.1]
      split
      · rfl
      · rw [ih b _ h.2]

theorem isInLoState_congr (mode : Mode) {s t : SetObj H} (h : SameRaws s t) :
    s.isInLoState mode = t.isInLoState mode := by
  have hflat : s.clauses.flatMap (fun c => c.raw) = t.clauses.flatMap (fun c => c.raw) := by
    unfold SameRaws raws at h
    rw [List.flatMap_def, List.flatMap_def, h]
  unfold SetObj.isInLoState
  match hs : s.clauses, ht : t.clauses with
  | [], [] => rfl
  | [], _ :: _ => unfold SameRaws at h; rw [hs, ht] at h; simp [raws] at h
  | _ :: _, [] => unfold SameRaws at h; rw [hs, ht] at h; simp [raws] at h
  | c :: cs, d :: ds =>
    unfold SameRaws at h
    rw [hs, ht] at h hflat
    have h' := h
    simp only [raws, List.map_cons, List.cons.injEq] at h'
    simp only [h'.1, hflat]
    split
    · rfl
    · split
      · rfl
      · rw [cond2_congr _ _ _ h]

theorem loStep_congr (mode : Mode) {s t : SetObj H} {x y : SetObj H ⊕ SetObj H} (h : SameRaws s t)
    (h1 : loStep mode s = pure x) (h2 : loStep mode t = pure y) :
    (∃ s' t', x = .inl s' ∧ y = .inl t' ∧ SameRaws s' t') ∨ (∃ s' t', x = .inr s' ∧ y = .inr t' ∧ SameRaws s' t') := by
  have ren : ∀ {s t : SetObj H}, SameRaws s t → (do let s ← s.renameVars; pure (Sum.inl s) : M (SetObj H ⊕ SetObj H)) = pure x →
      (do let s ← t.renameVars; pure (Sum.inl s) : M (SetObj H ⊕ SetObj H)) = pure y →
      ∃ s' t', x = .inl s' ∧ y = .inl t' ∧ SameRaws s' t' := by
    intro s t h h1 h2
    obtain ⟨s', e1, h1⟩ := M.bind_eq_pure.1 h1
    obtain ⟨t', e2, h2⟩ := M.bind_eq_pure.1 h2
    exact ⟨s', t', ((M.pure_inj _ _).1 h1).symm, ((M.pure_inj _ _).1 h2).symm, renameVars_congr h e1 e2⟩
  unfold loStep at h1 h2
  rw [← isInLoState_congr mode h] at h2
  obtain ⟨b, e1, h1⟩ := M.bind_eq_pure.1 h1
  rw [e1, M.pure_bind] at h2
  split at h1
  · next hb =>
    rw [if_pos hb] at h2
    exact Or.inr ⟨s, t, ((M.pure_inj _ _).1 h1).symm, ((M.pure_inj _ _).1 h2).symm, h⟩
  · next hb =>
    rw [if_neg hb] at h2
    split at h1
    · next hm =>
      rw [if_pos hm] at h2
      have hsc := sortClauses_congr h
      simp only at h1 h2
      rw [← isInLoState_congr mode hsc] at h2
      obtain ⟨b', e1', h1⟩ := M.bind_eq_pure.1 h1
      rw [e1', M.pure_bind] at h2
      split at h1
      · next hb' =>
        rw [if_pos hb'] at h2
        exact Or.inr ⟨_, _, ((M.pure_inj _ _).1 h1).symm, ((M.pure_inj _ _).1 h2).symm, hsc⟩
      · next hb' =>
        rw [if_neg hb'] at h2
        exact Or.inl (ren hsc h1 h2)
    · next hm =>
      rw [if_neg hm] at h2
      exact Or.inl (ren h h1 h2)

/-- Without the thief method the normal form depends only on the clauses. -/
theorem toLo_congr (mode : Mode) (z : Bool) {s t s' t' : SetObj H} (h : SameRaws s t)
    (h1 : s.toLo mode z false = pure s') (h2 : t.toLo mode z false = pure t') : SameRaws s' t' := by
  unfold SetObj.toLo at h1 h2
  simp only [Bool.false_eq_true, if_false] at h1 h2
  obtain ⟨s1, e1, h1⟩ := M.bind_eq_pure.1 h1
  obtain ⟨t1, e2, h2⟩ := M.bind_eq_pure.1 h2
  have hr : SameRaws s1 t1 := by
    refine renameVars_congr ?_ e1 e2
    split
    · exact sortByLength_congr h
    · exact h
  refine pyWhile_partial (step := loStep mode) (fun s => ∃ t, SameRaws s t ∧ pyWhile (loStep mode) t = pure t')
    (fun s' => SameRaws s' t') ?_ ?_ _ _ ⟨t1, hr, h2⟩ h1
  · rintro s s'' ⟨t, hst, ht⟩ hs
    rw [pyWhile_eq] at ht
    obtain ⟨y, hy, ht⟩ := M.bind_eq_pure.1 ht
    rcases loStep_congr mode hst hs hy with ⟨u, v, e1, e2, e3⟩ | ⟨u, v, e1, e2, e3⟩
    · cases e1; subst e2; exact ⟨v, e3, ht⟩
    · cases e1
  · rintro s r ⟨t, hst, ht⟩ hs
    rw [pyWhile_eq] at ht
    obtain ⟨y, hy, ht⟩ := M.bind_eq_pure.1 ht
    rcases loStep_congr mode hst hs hy with ⟨u, v, e1, e2, e3⟩ | ⟨u, v, e1, e2, e3⟩
    · cases e1
    · cases e1
      subst e2
      have : v = t' := by simpa using ht
      exact this ▸ e3

section
variable [DecidableEq H] (hash : Str → H) (a : Args) (im : Mode)

theorem kidsOf_congr (hth : a.thief = false) {R : Cnf} (hR : Proper R) {s t l l' : SetObj H} {b : Bool}
    (hs : Tracks R s) (ht : Tracks R t) (h : SameRaws s t) (hl : IsChild s b l) (hl' : IsChild t b l') :
    kidsOf hash a im l = kidsOf hash a im l' := by
  have hc : SameRaws l l' := by
    show raws l.clauses = raws l'.clauses
    rw [hl.clauses, hl'.clauses, h]
  have hv : l.value = l'.value := by rw [hl.value, hl'.value, h]
  unfold kidsOf
  match hval : l.value with
  | some v => rw [hval] at hv; rw [← hv]
  | none =>
    rw [hval] at hv
    rw [← hv]
    obtain ⟨c, h1, h2, _⟩ := toLo_tracks hR im a.sortBySize a.thief (hl.pre hs hval)
    obtain ⟨c', h1', h2', _⟩ := toLo_tracks hR im a.sortBySize a.thief (hl'.pre ht hv.symm)
    rw [h1, h1']
    rw [hth] at h1 h1'
    show [hid hash c] = [hid hash c']
    rw [hid_congr hash h2.node.cne h2'.node.cne (toLo_congr im _ hc h1 h1')]

/-- Without the thief method the edges of a node depend only on its clauses. -/
theorem Kids.congr (hth : a.thief = false) {R : Cnf} (hR : Proper R) {s t : SetObj H} (hs : Tracks R s) (ht : Tracks R t)
    (h : SameRaws s t) {ks : List H} (hk : Kids hash a im s ks) : Kids hash a im t ks := by
  obtain ⟨l, r, hev, rfl⟩ := hk
  obtain ⟨l1, r1, hev1, hl1, hr1⟩ := evaluate_ok hs.node
  cases pure_inj_some (hev.symm.trans hev1)
  obtain ⟨l2, r2, hev2, hl2, hr2⟩ := evaluate_ok ht.node
  refine ⟨l2, r2, hev2, ?_⟩
  rw [kidsOf_congr hash a im hth hR hs ht h hl1 hl2, kidsOf_congr hash a im hth hR hs ht h hr1 hr2]

theorem Kids.unique {s : SetObj H} {ks ks' : List H} (h : Kids hash a im s ks) (h' : Kids hash a im s ks') : ks = ks' := by
  obtain ⟨l, r, hev, rfl⟩ := h
  obtain ⟨l', r', hev', rfl⟩ := h'
  cases pure_inj_some (hev.symm.trans hev')
  rfl

/-- The node graph below `s0`, as a relation: the identities of the sets met, each with its edges. -/
def GraphOf (s0 : SetObj H) (h : H) (ks : List H) : Prop :=
  ∃ s, Met hash a im s0 s ∧ hid hash s = h ∧ Kids hash a im s ks

/-- A complete run without the thief method records exactly the graph below its root. -/
theorem Result.exact (hth : a.thief = false) {R : Cnf} (hR : Proper R) {s0 : SetObj H} (h0 : Tracks R s0)
    (hcoll : NoColl hash a im s0) {ps : PS H} (h : Result hash a im R s0 ps)
    (hfull : ¬ (a.exitUponSolving = true ∧ ps.isSat = true)) (k : H) (ks : List H) :
    ps.nodesChildren.get? k = some ks ↔ GraphOf hash a im s0 k ks := by
  -- every met set is recorded, with all its edges
  have key : ∀ s, Met hash a im s0 s → ∀ ks', Kids hash a im s ks' → ps.nodesChildren.get? (hid hash s) = some ks' := by
    have all : ∀ s, Met hash a im s0 s → hid hash s ∈ ps.nodesChildren.keys →
        ∀ ks', Kids hash a im s ks' → ps.nodesChildren.get? (hid hash s) = some ks' := by
      intro s hs hk ks' hks'
      obtain ⟨ks2, t, e1, e2, e3, e4⟩ := h.full hfull _ hk
      have hraw := hcoll t s e2 hs e3
      have := Kids.congr hash a im hth hR (e2.tracks hash a im hR h0) (hs.tracks hash a im hR h0) hraw e4
      rw [e1, Kids.unique hash a im this hks']
    intro s hs
    have hmem : hid hash s ∈ ps.nodesChildren.keys := by
      induction hs with
      | root => rw [hid_store hash h0.node]; exact h.graph.rootMem
      | @child s l r ch c hs hev hch hv hlo ih =>
        have ht := hs.tracks hash a im hR h0
        obtain ⟨l', r', hev', hl, hr⟩ := evaluate_ok ht.node
        cases pure_inj_some (hev.symm.trans hev')
        have hg := all s hs ih _ ⟨_, _, hev, rfl⟩
        have hnode : Node (childItem hash c) := by
          rcases hch with rfl | rfl
          · exact (toLo_childItem_tracks hash a im hR ht hl hv hlo).node
          · exact (toLo_childItem_tracks hash a im hR ht hr hv hlo).node
        have hidc : hid hash (store a.useRuntimeDb (childItem hash c)) = hid hash c := hid_store hash hnode _
        rw [hidc]
        have hkid : hid hash c ∈ kidsOf hash a im ch := by
          unfold kidsOf; rw [hv, hlo]; simp [pure, ExceptT.pure, ExceptT.mk]
        apply h.graph.closed _ _ _ hg
        rcases hch with rfl | rfl
        · exact List.mem_append_left _ hkid
        · exact List.mem_append_right _ hkid
    exact all s hs hmem
  constructor
  · intro hk
    obtain ⟨ks2, t, e1, e2, e3, e4⟩ := h.full hfull _ (Dict.mem_keys_of_get? hk)
    rw [hk] at e1
    cases e1
    exact ⟨t, e2, e3, e4⟩
  · rintro ⟨s, h1, rfl, h3⟩
    exact key s h1 ks h3

/-- Hence every recorded node can be reached from the root. -/
theorem Result.reach (hth : a.thief = false) {R : Cnf} (hR : Proper R) {s0 : SetObj H} (h0 : Tracks R s0)
    (hcoll : NoColl hash a im s0) {ps : PS H} (h : Result hash a im R s0 ps)
    (hfull : ¬ (a.exitUponSolving = true ∧ ps.isSat = true)) :
    ∀ k ∈ ps.nodesChildren.keys, Reach ps.nodesChildren (hid hash s0) k := by
  have hex := h.exact hash a im hth hR h0 hcoll hfull
  intro k hk
  obtain ⟨ks, hks⟩ := Dict.exists_get?_of_mem hk
  obtain ⟨s, hs, rfl, hkk⟩ := (hex k ks).1 hks
  clear hks hk hkk
  induction hs with
  | root => rw [hid_store hash h0.node]
  | @child s l r ch c hs hev hch hv hlo ih =>
    have ht := hs.tracks hash a im hR h0
    obtain ⟨l', r', hev', hl, hr⟩ := evaluate_ok ht.node
    cases pure_inj_some (hev.symm.trans hev')
    have hnode : Node (childItem hash c) := by
      rcases hch with rfl | rfl
      · exact (toLo_childItem_tracks hash a im hR ht hl hv hlo).node
      · exact (toLo_childItem_tracks hash a im hR ht hr hv hlo).node
    have hidc : hid hash (store a.useRuntimeDb (childItem hash c)) = hid hash c := hid_store hash hnode _
    rw [hidc]
    have hkid : hid hash c ∈ kidsOf hash a im ch := by
      unfold kidsOf; rw [hv, hlo]; simp [pure, ExceptT.pure, ExceptT.mk]
    refine Relation.ReflTransGen.tail ih ⟨_, (hex (hid hash s) _).2 ⟨s, hs, rfl, _, _, hev, rfl⟩, ?_⟩
    rcases hch with rfl | rfl
    · exact List.mem_append_left _ hkid
    · exact List.mem_append_right _ hkid

/-- A single process without workers: every recorded node can be reached, thief method or not. -/
theorem runMain_single (hg : a.useGlobalDb = false) (seen : List H) (g : Gdb H) {fails : Nat → Bool}
    {sched : List Bool} {R : Cnf} (hR : Proper R) {s : SetObj H} (hs : Ready hash a R s) {ps : PS H}
    (hrun : runMain hash a im seen g 0 fails sched s = pure ps) :
    (∃ l, Inv hash a im R s (hid hash s) ps l) ∧ ps.uniques = ps.nodesChildren.length := by
  obtain ⟨ps0, h0, hinv, hu, _, hnc⟩ := initPS_ok hash a im g 1 hs
  have hne := hs.tracks.ne_nil
  unfold runMain at hrun
  rw [h0] at hrun
  refine pyWhile_partial (step := mainStep hash a im seen 0 fails sched)
    (fun st => (∃ l, Inv hash a im R s (hid hash s) st.ps l) ∧ st.ps.uniques = st.ps.nodesChildren.length)
    (fun ps => (∃ l, Inv hash a im R s (hid hash s) ps l) ∧ ps.uniques = ps.nodesChildren.length) ?_ ?_ _ _
    ⟨⟨_, hinv⟩, by simp [hu, hnc]⟩ hrun
  · rintro ⟨ps, gen⟩ st' ⟨⟨l, hi⟩, hc⟩ hstep
    simp only at hi hc
    unfold mainStep at hstep
    by_cases hk : NDP.keepGoing a ps = true
    swap
    · simp [hk] at hstep
    simp only [hk, if_true] at hstep
    rw [hi.keepGoing hash a im hne] at hk
    match l, hi with
    | [], _ => simp at hk
    | x :: l, hi =>
      obtain ⟨ps', l', e1, e2, e3, _, _, _, e7⟩ := hi.step hash a im hg seen hR
      rw [e1] at hstep
      simp at hstep
      rw [← hstep]
      exact ⟨⟨l', e2⟩, by simp only; omega⟩
  · rintro ⟨ps, gen⟩ r ⟨⟨l, hi⟩, hc⟩ hstep
    unfold mainStep at hstep
    by_cases hk : NDP.keepGoing a ps = true
    · exfalso
      simp only [hk, if_true] at hstep
      rw [M.bind_eq_pure] at hstep
      obtain ⟨p1, _, hstep⟩ := hstep
      simp at hstep
    · simp only [hk, Bool.false_eq_true, if_false, M.pure_inj, Sum.inr.injEq] at hstep
      rw [← hstep]
      exact ⟨⟨l, hi⟩, hc⟩

end
end NDP
