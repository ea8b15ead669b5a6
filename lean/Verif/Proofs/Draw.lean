import Verif.Proofs.Child
import Verif.Model.Draw
/- The drawing of a run: it does not disturb the search, and what it contains. -/
namespace NDP
open Spec SetObj
variable {H : Type} [DecidableEq H] (hash : Str → H) (a : Args) (im : Mode)

theorem M.bind_congr {α β : Type} {x : M α} {f g : α → M β} (h : ∀ y, x = pure y → f y = g y) :
    (x >>= f) = (x >>= g) := by
  rcases M.cases x with rfl | ⟨e, rfl⟩ | ⟨y, rfl⟩
  · rfl
  · rfl
  · exact h y rfl

theorem M.map_eq {α β : Type} (f : α → β) (x : M α) : f <$> x = (x >>= fun y => pure (f y)) := by
  rcases M.cases x with rfl | ⟨e, rfl⟩ | ⟨y, rfl⟩ <;> rfl

theorem M.bind_assoc' {α β γ : Type} (x : M α) (f : α → M β) (g : β → M γ) :
    ((x >>= f) >>= g) = (x >>= fun y => f y >>= g) := by
  rcases M.cases x with rfl | ⟨e, rfl⟩ | ⟨y, rfl⟩ <;> rfl

theorem getHash_spec {s s' : SetObj H} {f : Bool} {k : H} (h : s.getHash hash f = pure (k, s')) :
    s' = { s with computedHash := some k } ∧ (f = true → ∃ t, s.toStr = pure t ∧ k = hash t) := by
  unfold getHash at h
  split at h
  · next h1 =>
    have e := (M.pure_inj _ _).1 h
    simp only [Prod.mk.injEq] at e
    refine ⟨?_, by simp⟩
    rw [← e.2, ← e.1, ← h1]
  · obtain ⟨t, ht, h⟩ := M.bind_eq_pure.1 h
    have e := (M.pure_inj _ _).1 h
    simp only [Prod.mk.injEq] at e
    exact ⟨by rw [← e.2, ← e.1], fun _ => ⟨t, ht, e.1.symm⟩⟩

/-- What handling a child does, whatever the state: `before` and `after` are its texts. -/
inductive Handled (pulled : Bool) (pid : Option H) (ps : PS H) (ch : SetObj H) (before after : Str) (ps' : PS H)
    (ch' : SetObj H) : Prop
  | const (v : Bool) (hv : ch.value = some v) (hv' : ch'.value = some v) (hst : ch'.status = some .evaluated)
      (hnc : ps'.nodesChildren = ps.nodesChildren) (hsat : ps'.isSat = (ps.isSat || v))
      (hu : ps'.uniques = ps.uniques) (hh : ps'.redundantHits = ps.redundantHits)
  | uniq (h p : H) (ks : List H) (hid : ch'.id = some h) (hp : pid = some p) (hst : ch'.status = some .unique)
      (hnew : ps.nodesChildren.get? h = none) (hks : (ps.nodesChildren.set h []).get? p = some ks)
      (hnc : ps'.nodesChildren = (ps.nodesChildren.set h []).set p (ks ++ [h])) (hsat : ps'.isSat = ps.isSat)
      (hu : ps'.uniques = ps.uniques + 1) (hh : ps'.redundantHits = ps.redundantHits)
      (hha : pulled = false → h = hash after)
  | red (h p : H) (ks : List H) (hid : ch'.id = some h) (hp : pid = some p) (hst : ch'.status = some .redundant)
      (hold : (ps.nodesChildren.get? h).isSome) (hks : ps.nodesChildren.get? p = some ks)
      (hnc : ps'.nodesChildren = ps.nodesChildren.set p (ks ++ [h])) (hsat : ps'.isSat = ps.isSat)
      (hu : ps'.uniques = ps.uniques) (hh : ps'.redundantHits = ps.redundantHits + 1)
      (hha : pulled = false → h = hash after)

theorem appendChild_spec {nc nc' : Dict H (List H)} {pid : Option H} {c : H} (h : appendChild nc pid c = pure nc') :
    ∃ p ks, pid = some p ∧ nc.get? p = some ks ∧ nc' = nc.set p (ks ++ [c]) := by
  unfold appendChild at h
  split at h
  · exact absurd h (M.raise_ne_pure _ _)
  · next p =>
    split at h
    · exact absurd h (M.raise_ne_pure _ _)
    · next ks hks => exact ⟨p, ks, rfl, hks, ((M.pure_inj _ _).1 h).symm⟩

/-- Lines 344-373 for a child whose status is known. -/
def finishChild (pid : Option H) (ps : PS H) (child : SetObj H) : M (PS H × SetObj H) := do
  let _ ← child.toStr
  let (_, child) ← child.getHash hash false
  match child.status, child.id with
  | some .unique, some cid => do
    let nc := ps.nodesChildren.set cid []
    let nc ← appendChild nc pid cid
    pure ({ ps with uniques := ps.uniques + 1, nodesChildren := nc }, child)
  | some .redundant, some cid => do
    let nc ← appendChild ps.nodesChildren pid cid
    pure ({ ps with redundantHits := ps.redundantHits + 1,
                    redundantIds := if cid ∈ ps.redundantIds then ps.redundantIds else ps.redundantIds ++ [cid],
                    nodesChildren := nc }, child)
  | _, _ =>
    pure ({ ps with isSat := ps.isSat || (child.value == some true) }, child)

/-- Lines 319-342. -/
def beginChild (pulled : Bool) (ps : PS H) (child : SetObj H) : M (PS H × SetObj H) :=
  match child.value with
    | some v =>
      let child := { child with status := some Status.evaluated }
      let ps := if v = true ∧ ps.solution = none
                then { ps with solution := some (sortItems child.evaluatedVars) } else ps
      pure (ps, child)
    | none => (if !pulled then do
          let c ← child.toLo im a.sortBySize a.thief
          let (_, c) ← c.getHash hash true
          pure c
        else pure child) >>= fun child => do
      let (h, child) ← child.getHash hash false
      let child := { child with id := some h }
      let st := if (ps.nodesChildren.get? h).isSome then Status.redundant else Status.unique
      pure (ps, { child with status := some st })

theorem processChild_eq (pulled : Bool) (pid : Option H) (ps : PS H) (ch : SetObj H) :
    processChild hash a im pulled pid ps ch =
      (ch.toStr >>= fun _ => beginChild hash a im pulled ps ch >>= fun r => finishChild hash pid r.1 r.2) := by
  unfold processChild beginChild
  refine M.bind_congr fun b _ => ?_
  cases hv : ch.value with
  | some v => rfl
  | none =>
    cases pulled
    · simp only [Bool.not_false, if_true, M.bind_assoc']
      rfl
    · simp only [Bool.not_true, Bool.false_eq_true, if_false, M.bind_assoc']
      rfl

theorem processChild_handled {pulled : Bool} {pid : Option H} {ps ps' : PS H} {ch ch' : SetObj H}
    (h : processChild hash a im pulled pid ps ch = pure (ps', ch')) :
    ∃ b t, ch.toStr = pure b ∧ ch'.toStr = pure t ∧ ps'.queue = ps.queue ∧
      Handled hash pulled pid ps ch b t ps' ch' := by
  rw [processChild_eq] at h
  obtain ⟨b, hb, h⟩ := M.bind_eq_pure.1 h
  refine ⟨b, ?_⟩
  obtain ⟨⟨ps1, c1⟩, h1, h⟩ := M.bind_eq_pure.1 h
  unfold finishChild at h
  unfold beginChild at h1
  obtain ⟨t, ht, h⟩ := M.bind_eq_pure.1 h
  obtain ⟨⟨k, c2⟩, hk, h⟩ := M.bind_eq_pure.1 h
  obtain ⟨hk1, -⟩ := getHash_spec hash hk
  simp only at h
  have hst2 : c2.status = c1.status := by rw [hk1]
  have hid2 : c2.id = c1.id := by rw [hk1]
  have hv2 : c2.value = c1.value := by rw [hk1]
  have ht2 : c2.toStr = pure t := by rw [hk1]; exact ht
  split at h1
  · next v hv =>
    have e := (M.pure_inj _ _).1 h1
    simp only [Prod.mk.injEq] at e
    obtain ⟨e1, e2⟩ := e
    have hs1 : c1.status = some .evaluated := by rw [← e2]
    have hv1 : c1.value = some v := by rw [← e2]; exact hv
    rw [hst2, hs1] at h
    simp only at h
    have e := (M.pure_inj _ _).1 h
    simp only [Prod.mk.injEq] at e
    obtain ⟨e3, e4⟩ := e
    subst e4
    refine ⟨t, hb, ht2, ?_, ?_⟩
    · rw [← e3, ← e1]; split <;> rfl
    · apply Handled.const v hv (by rw [hv2, hv1]) (by rw [hst2, hs1])
      · rw [← e3, ← e1]; split <;> rfl
      · rw [← e3, ← e1, hv2, hv1]; split <;> cases v <;> simp
      · rw [← e3, ← e1]; split <;> rfl
      · rw [← e3, ← e1]; split <;> rfl
  · next hv =>
    obtain ⟨c3, h3, h1⟩ := M.bind_eq_pure.1 h1
    obtain ⟨⟨k4, c4⟩, h4, h1⟩ := M.bind_eq_pure.1 h1
    have e := (M.pure_inj _ _).1 h1
    simp only [Prod.mk.injEq] at e
    obtain ⟨e1, e2⟩ := e
    subst e1
    obtain ⟨hc4, -⟩ := getHash_spec hash h4
    have hid1 : c1.id = some k4 := by rw [← e2]
    have hst1 : c1.status = some (if (ps.nodesChildren.get? k4).isSome then Status.redundant else Status.unique) := by
      rw [← e2]
    have hhash : pulled = false → k4 = hash t := by
      rintro rfl
      simp only [Bool.not_false, if_true] at h3
      obtain ⟨c5, _, h3⟩ := M.bind_eq_pure.1 h3
      obtain ⟨⟨k6, c6⟩, h6, h3⟩ := M.bind_eq_pure.1 h3
      have e := (M.pure_inj _ _).1 h3
      simp only at e
      subst e
      obtain ⟨hc6, hf⟩ := getHash_spec hash h6
      obtain ⟨t', ht', hk6⟩ := hf rfl
      have hk46 : k4 = k6 := by
        unfold getHash at h4
        rw [hc6] at h4
        simp only at h4
        have e := (M.pure_inj _ _).1 h4
        simp only [Prod.mk.injEq] at e
        exact e.1.symm
      have : c1.toStr = c5.toStr := by
        rw [← e2, hc4, hc6]; rfl
      rw [this, ht'] at ht
      rw [hk46, hk6, (M.pure_inj _ _).1 ht]
    by_cases hin : (ps.nodesChildren.get? k4).isSome
    · rw [if_pos hin] at hst1
      rw [hst2, hid2, hst1, hid1] at h
      simp only at h
      obtain ⟨nc, hnc, h⟩ := M.bind_eq_pure.1 h
      have e := (M.pure_inj _ _).1 h
      simp only [Prod.mk.injEq] at e
      obtain ⟨e3, e4⟩ := e
      subst e4
      obtain ⟨p, ks, hp, hks, hnc'⟩ := appendChild_spec hnc
      refine ⟨t, hb, ht2, by rw [← e3], ?_⟩
      exact Handled.red k4 p ks (by rw [hid2, hid1]) hp (by rw [hst2, hst1]) hin hks (by rw [← e3, hnc'])
        (by rw [← e3]) (by rw [← e3]) (by rw [← e3]) hhash
    · rw [if_neg hin] at hst1
      rw [hst2, hid2, hst1, hid1] at h
      simp only at h
      obtain ⟨nc, hnc, h⟩ := M.bind_eq_pure.1 h
      have e := (M.pure_inj _ _).1 h
      simp only [Prod.mk.injEq] at e
      obtain ⟨e3, e4⟩ := e
      subst e4
      obtain ⟨p, ks, hp, hks, hnc'⟩ := appendChild_spec hnc
      refine ⟨t, hb, ht2, by rw [← e3], ?_⟩
      exact Handled.uniq k4 p ks (by rw [hid2, hid1]) hp (by rw [hst2, hst1]) (by simpa using hin) hks
        (by rw [← e3, hnc']) (by rw [← e3]) (by rw [← e3]) (by rw [← e3]) hhash

/-- What is drawn for a handled child. -/
def dotsFor (p : H) (before after : Str) (ch : SetObj H) : List (Dot H) :=
  match ch.status, ch.id with
  | some .unique, some c => [.node c before after (some ⟨ch.finalNamesMap, ch.originalValues, ch.evaluatedVars,
      ch.highestOccurringVar⟩), .edge p c]
  | some .redundant, some c => [.again c, .edge p c]
  | some .evaluated, _ => [.const after, .edgeConst p after]
  | _, _ => []

theorem drawChild_ok {pulled : Bool} {p : H} {ps ps' : PS H} {ch ch' : SetObj H} {b t : Str}
    (h : Handled hash pulled (some p) ps ch b t ps' ch') (ht : ch'.toStr = pure t) (b' : Str) :
    drawChild (some p) b' ch' = pure (dotsFor p b' t ch') := by
  unfold drawChild dotsFor
  cases h with
  | const v hv hv' hst => rw [hst]; simp [ht, hexOf]
  | uniq h p ks hid hp hst => rw [hst, hid]; simp [ht, hexOf]
  | red h p ks hid hp hst => rw [hst, hid]; simp [hexOf]

theorem strThen {pulled : Bool} {pid : Option H} {ps : PS H} {ch : SetObj H} {β : Type}
    {G : Str → PS H × SetObj H → M β} {F : PS H × SetObj H → M β}
    (h : ∀ b r, processChild hash a im pulled pid ps ch = pure r → G b r = F r) :
    (ch.toStr >>= fun b => processChild hash a im pulled pid ps ch >>= G b) =
      (processChild hash a im pulled pid ps ch >>= F) := by
  rcases M.cases ch.toStr with e | ⟨x, e⟩ | ⟨y, e⟩
  · rw [processChild_eq, e]; rfl
  · rw [processChild_eq, e]; rfl
  · rw [e]
    exact M.bind_congr fun r hr => h y r hr

theorem getChildren_id {seen : List H} {g : Gdb H} {x x' s1 s2 : SetObj H} {p : Bool}
    (h : getChildren hash a seen g x = pure (s1, s2, p, x')) : x'.id = x.id := by
  unfold getChildren at h
  have ev : ∀ {y : SetObj H}, (do match ← y.evaluate with
      | none => raise .attributeError
      | some (s1, s2) => pure (s1, s2, false, y) : M (SetObj H × SetObj H × Bool × SetObj H)) = pure (s1, s2, p, x') →
      x' = y := by
    intro y h
    obtain ⟨r, _, h⟩ := M.bind_eq_pure.1 h
    cases r with
    | none => exact absurd h (M.raise_ne_pure _ _)
    | some r =>
      have e := (M.pure_inj _ _).1 h
      simp only [Prod.mk.injEq] at e
      exact e.2.2.2.symm
  split at h
  · obtain ⟨⟨k, y⟩, hk, h⟩ := M.bind_eq_pure.1 h
    obtain ⟨hy, -⟩ := getHash_spec hash hk
    have hyx : y.id = x.id := by rw [hy]
    simp only at h
    split at h
    · have e := (M.pure_inj _ _).1 h
      simp only [Prod.mk.injEq] at e
      rw [← e.2.2.2, hyx]
    · rw [ev h, hyx]
  · rw [ev h]

/-- Drawing changes nothing in a pass of the loop. -/
theorem expandDot_fst (seen : List H) {ps : PS H} (hq : ∀ x q, ps.queue.pop = pure (x, q) → x.id.isSome) :
    (Prod.fst <$> expandDot hash a im seen ps) = expand hash a im seen ps := by
  rw [M.map_eq]
  unfold expandDot expand
  simp only [M.bind_assoc']
  refine M.bind_congr fun ⟨x, q⟩ hx => ?_
  obtain ⟨p, hp⟩ := Option.isSome_iff_exists.1 (hq x q hx)
  simp only [M.bind_assoc']
  refine M.bind_congr fun ⟨s1, s2, pulled, x'⟩ hc => ?_
  have hp' : x'.id = some p := by rw [getChildren_id hash a hc, hp]
  simp only [M.bind_assoc', hp']
  refine strThen hash a im fun b1 ⟨ps1, c1⟩ h1 => ?_
  obtain ⟨_, t1, _, ht1, _, hh1⟩ := processChild_handled hash a im h1
  simp only [M.bind_assoc', drawChild_ok hash hh1 ht1, M.pure_bind]
  refine strThen hash a im fun b2 ⟨ps2, c2⟩ h2 => ?_
  obtain ⟨_, t2, _, ht2, _, hh2⟩ := processChild_handled hash a im h2
  simp only [M.bind_assoc', drawChild_ok hash hh2 ht2, M.pure_bind]
  refine M.bind_congr fun ⟨h1, d1⟩ _ => ?_
  simp only [M.bind_assoc']
  refine M.bind_congr fun ⟨h2, d2⟩ _ => ?_
  simp only [M.bind_assoc']
  refine M.bind_congr fun ⟨st, g⟩ _ => ?_
  by_cases hst : st = .success
  · simp only [hst, if_true, M.bind_assoc', M.pure_bind]
  · simp only [hst, if_false, M.pure_bind]

theorem pyWhileN_of_pyWhile {S R : Type} {step : S → M (S ⊕ R)} :
    ∀ (s : S) (x : Except PyErr R), pyWhile step s = some x → ∃ n, pyWhileN step n s = some x := by
  refine pyWhile.fixpoint_induct step (fun f => ∀ s x, f s = some x → ∃ n, pyWhileN step n s = some x) ?_ ?_
  · refine Lean.Order.admissible_pi_apply (fun s (y : Option (Except PyErr R)) =>
      ∀ x, y = some x → ∃ n, pyWhileN step n s = some x) ?_
    intro s
    refine Lean.Order.admissible_pi (fun (y : Option (Except PyErr R)) x => y = some x → ∃ n, pyWhileN step n s = some x) ?_
    intro x
    exact Lean.Order.Option.admissible_eq_some _ x
  · intro f ih s x hx
    have hx' : (step s >>= fun r => match r with
      | .inl s' => f s'
      | .inr r => pure r) = (some x : M R) := hx
    rcases M.cases (step s) with e | ⟨y, e⟩ | ⟨y, e⟩
    · rw [e] at hx'; cases hx'
    · refine ⟨1, ?_⟩
      rw [pyWhileN, e]
      rw [e] at hx'
      exact hx'
    · rw [e] at hx'
      cases y with
      | inl s' =>
        obtain ⟨n, hn⟩ := ih s' x hx'
        exact ⟨n + 1, by rw [pyWhileN, e]; exact hn⟩
      | inr r => exact ⟨1, by rw [pyWhileN, e]; exact hx'⟩

/-- A loop that carries more state runs like the loop that does not. -/
theorem pyWhile_map {S1 R1 S2 R2 : Type} {step1 : S1 → M (S1 ⊕ R1)} {step2 : S2 → M (S2 ⊕ R2)} (f : S2 → S1)
    (g : R2 → R1) (I : S2 → Prop) (h : ∀ s, I s → (Sum.map f g <$> step2 s) = step1 (f s))
    (hI : ∀ s s', I s → step2 s = pure (.inl s') → I s') {s : S2} (hs : I s) :
    (g <$> pyWhile step2 s) = pyWhile step1 (f s) := by
  have hN : ∀ n s, I s → (g <$> pyWhileN step2 n s) = pyWhileN step1 n (f s) := by
    intro n
    induction n with
    | zero => intro s _; rfl
    | succ n ih =>
      intro s hs
      have h1 := h s hs
      rw [pyWhileN, pyWhileN, ← h1]
      rcases M.cases (step2 s) with e | ⟨y, e⟩ | ⟨y, e⟩
      · rw [e]; rfl
      · rw [e]; rfl
      · rw [e]
        cases y with
        | inl s' => exact ih s' (hI s s' hs e)
        | inr r => rfl
  match h2 : pyWhile step2 s with
  | none =>
    match h1 : pyWhile step1 (f s) with
    | none => rfl
    | some x =>
      obtain ⟨n, hn⟩ := pyWhileN_of_pyWhile _ _ h1
      rw [← hN n s hs] at hn
      match h3 : pyWhileN step2 n s with
      | none => rw [h3] at hn; cases hn
      | some y => rw [pyWhile_of_pyWhileN n s y h3] at h2; cases h2
  | some y =>
    obtain ⟨n, hn⟩ := pyWhileN_of_pyWhile _ _ h2
    have h1 := hN n s hs
    rw [hn] at h1
    cases y with
    | error e => exact (pyWhile_of_pyWhileN n (f s) (.error e) h1.symm).symm
    | ok r => exact (pyWhile_of_pyWhileN n (f s) (.ok (g r)) h1.symm).symm

/-! ### identities of queued sets -/

/-- Every set on the queue has its identity (a set read back from the runtime table gets it there). -/
def QIds (q : Queue H) : Prop := q.useDb = false → ∀ x ∈ q.objs, x.id.isSome

theorem QIds.pop {q q' : Queue H} {x : SetObj H} (h : QIds q) (hp : q.pop = pure (x, q')) : x.id.isSome ∧ QIds q' := by
  unfold Queue.pop at hp
  split at hp
  · next hdb =>
    split at hp
    · exact absurd hp (M.raise_ne_pure _ _)
    · split at hp
      · exact absurd hp (M.raise_ne_pure _ _)
      · next h2 _ _ _ =>
        have fin : ∀ {y : SetObj H} {q1 : Queue H}, q1.useDb = true →
            (pure ({ y with id := some h2 }, q1) : M (SetObj H × Queue H)) = pure (x, q') → x.id.isSome ∧ QIds q' := by
          intro y q1 hd he
          have e := (M.pure_inj _ _).1 he
          simp only [Prod.mk.injEq] at e
          refine ⟨by rw [← e.1]; rfl, ?_⟩
          intro hf
          rw [← e.2, hd] at hf
          simp at hf
        split at hp
        · simp only [M.pure_bind] at hp
          refine fin ?_ hp
          exact hdb
        · obtain ⟨y, _, hp⟩ := M.bind_eq_pure.1 hp
          refine fin ?_ hp
          exact hdb
  · next hdb =>
    split at hp
    · exact absurd hp (M.raise_ne_pure _ _)
    · next y rest hobj =>
      have e := (M.pure_inj _ _).1 hp
      simp only [Prod.mk.injEq] at e
      have hdb' : q.useDb = false := by simpa using hdb
      have := h hdb'
      rw [hobj] at this
      refine ⟨by rw [← e.1]; exact this y (by simp), ?_⟩
      intro _ z hz
      rw [← e.2] at hz
      exact this z (by simp at hz ⊢; exact Or.inr hz)

theorem QIds.insert {q q' : Queue H} {x : SetObj H} (h : QIds q) (hx : x.id.isSome) (hp : q.insert x = pure q') :
    QIds q' := by
  unfold Queue.insert at hp
  split at hp
  · next hdb =>
    obtain ⟨b, _, hp⟩ := M.bind_eq_pure.1 hp
    have e := (M.pure_inj _ _).1 hp
    intro hf
    rw [← e, hdb] at hf
    simp at hf
  · next hdb =>
    have e := (M.pure_inj _ _).1 hp
    intro _ z hz
    rw [← e] at hz
    rcases List.mem_append.1 hz with hz | hz
    · exact h (by simpa using hdb) z hz
    · rw [List.mem_singleton] at hz; rw [hz]; exact hx

theorem QIds.enqueue {q q' : Queue H} {x : SetObj H} (h : QIds q) (hx : x.status = some .unique → x.id.isSome)
    (hp : enqueueUnique q x = pure q') : QIds q' := by
  unfold enqueueUnique at hp
  split at hp
  · next hs => exact h.insert (hx hs) hp
  · have e := (M.pure_inj _ _).1 hp
    rw [← e]; exact h

theorem QIds.popMany {n : Nat} : ∀ {q q' : Queue H} {xs : List (SetObj H)}, QIds q → popMany n q = pure (xs, q') →
    (∀ x ∈ xs, x.id.isSome) ∧ QIds q' := by
  induction n with
  | zero =>
    intro q q' xs h hp
    have e := (M.pure_inj _ _).1 hp
    simp only [Prod.mk.injEq] at e
    rw [← e.1, ← e.2]
    exact ⟨by simp, h⟩
  | succ n ih =>
    intro q q' xs h hp
    rw [NDP.popMany] at hp
    obtain ⟨⟨x, q1⟩, h1, hp⟩ := M.bind_eq_pure.1 hp
    obtain ⟨⟨ys, q2⟩, h2, hp⟩ := M.bind_eq_pure.1 hp
    have e := (M.pure_inj _ _).1 hp
    simp only [Prod.mk.injEq] at e
    obtain ⟨a1, a2⟩ := h.pop h1
    obtain ⟨b1, b2⟩ := ih a2 h2
    rw [← e.1, ← e.2]
    refine ⟨?_, b2⟩
    intro z hz
    rcases List.mem_cons.1 hz with rfl | hz
    · exact a1
    · exact b1 z hz

theorem QIds.collect : ∀ (sched : List Bool) {st : CollectSt H} {ps : PS H}, QIds st.ps.queue →
    (∀ t ∈ st.threads, t.node.id.isSome) → collect a sched st = pure ps → QIds ps.queue := by
  intro sched
  induction sched with
  | nil =>
    intro st ps h _ hp
    rw [NDP.collect] at hp
    split at hp
    · rw [← (M.pure_inj _ _).1 hp]; exact h
    · exact absurd hp (M.diverge_ne_pure _)
  | cons r rs ih =>
    intro st ps h ht hp
    rw [NDP.collect] at hp
    obtain ⟨y, hy, hp⟩ := M.bind_eq_pure.1 hp
    have key : (∀ ps1, y = .inr ps1 → QIds ps1.queue) ∧
        (∀ st1, y = .inl st1 → QIds st1.ps.queue ∧ ∀ t ∈ st1.threads, t.node.id.isSome) := by
      unfold collectStep at hy
      split at hy
      · rw [← (M.pure_inj _ _).1 hy]; simp; exact h
      simp only at hy
      split at hy
      · rw [← (M.pure_inj _ _).1 hy]; simp; exact h
      next t htg =>
      have htm : t ∈ st.threads := List.mem_of_getElem? htg
      split at hy
      · obtain ⟨q, hq, hy⟩ := M.bind_eq_pure.1 hy
        rw [← (M.pure_inj _ _).1 hy]
        simp only [Sum.inl.injEq, reduceCtorEq, false_imp_iff, implies_true, true_and]
        rintro st1 rfl
        refine ⟨h.insert (ht t htm) hq, ?_⟩
        intro t' ht'
        rcases List.mem_or_eq_of_mem_set ht' with h' | rfl
        · exact ht t' h'
        · exact ht t htm
      · split at hy
        · split at hy
          · rw [← (M.pure_inj _ _).1 hy]; simp; exact h
          · rw [← (M.pure_inj _ _).1 hy]
            simp only [Sum.inl.injEq, reduceCtorEq, false_imp_iff, implies_true, true_and]
            rintro st1 rfl
            exact ⟨h, fun t' ht' => ht t' (List.mem_of_mem_eraseIdx ht')⟩
        · rw [← (M.pure_inj _ _).1 hy]
          simp only [Sum.inl.injEq, reduceCtorEq, false_imp_iff, implies_true, true_and]
          rintro st1 rfl
          exact ⟨h, fun t' ht' => ht t' (List.mem_of_mem_eraseIdx ht')⟩
      · rw [← (M.pure_inj _ _).1 hy]
        simp only [Sum.inl.injEq, reduceCtorEq, false_imp_iff, implies_true, true_and]
        rintro st1 rfl
        exact ⟨h, ht⟩
    cases y with
    | inl st1 =>
      obtain ⟨k1, k2⟩ := key.2 st1 rfl
      exact ih k1 k2 hp
    | inr ps1 =>
      rw [← (M.pure_inj _ _).1 hp]
      exact key.1 ps1 rfl

/-- What a pass of the loop does, whatever the state. -/
structure DotPass (ps ps' : PS H) (d : List (Dot H)) (x : SetObj H) (p : H) (s1 s2 c1 c2 : SetObj H) (b1 t1 b2 t2 : Str)
    (pulled : Bool) (psA psB psC : PS H) : Prop where
  pop : ∃ q, ps.queue.pop = pure (x, q) ∧ psA.queue = q ∧ psC.queue = q
  kids : ∃ seen x', getChildren hash a seen ps.gdb x = pure (s1, s2, pulled, x')
  id : x.id = some p
  nc : psA.nodesChildren = ps.nodesChildren ∧ psA.isSat = ps.isSat ∧ psA.uniques = ps.uniques ∧
    psA.redundantHits = ps.redundantHits
  one : processChild hash a im pulled (some p) psA s1 = pure (psB, c1)
  two : processChild hash a im pulled (some p) psB s2 = pure (psC, c2)
  str1 : s1.toStr = pure b1
  str2 : s2.toStr = pure b2
  str1' : c1.toStr = pure t1
  str2' : c2.toStr = pure t2
  dots : d = dotsFor p b1 t1 c1 ++ dotsFor p b2 t2 c2
  nc' : ps'.nodesChildren = psC.nodesChildren ∧ ps'.isSat = psC.isSat ∧ ps'.uniques = psC.uniques ∧
    ps'.redundantHits = psC.redundantHits
  qids : QIds ps'.queue

theorem Handled.unique_id {pulled : Bool} {pid : Option H} {ps ps' : PS H} {ch ch' : SetObj H} {b t : Str}
    (h : Handled hash pulled pid ps ch b t ps' ch') (hs : ch'.status = some .unique) : ch'.id.isSome := by
  cases h with
  | const v hv hv' hst => rw [hst] at hs; simp at hs
  | uniq h p ks hid => rw [hid]; rfl
  | red h p ks hid => rw [hid]; rfl

theorem expandDot_pass {seen : List H} {ps ps' : PS H} {d : List (Dot H)} (hq : QIds ps.queue)
    (h : expandDot hash a im seen ps = pure (ps', d)) :
    ∃ x p s1 s2 c1 c2 b1 t1 b2 t2 pulled psA psB psC,
      DotPass hash a im ps ps' d x p s1 s2 c1 c2 b1 t1 b2 t2 pulled psA psB psC := by
  unfold expandDot at h
  obtain ⟨⟨x, q⟩, hx, h⟩ := M.bind_eq_pure.1 h
  obtain ⟨hxi, hq0⟩ := hq.pop hx
  obtain ⟨p, hp⟩ := Option.isSome_iff_exists.1 hxi
  obtain ⟨⟨s1, s2, pulled, x'⟩, hc, h⟩ := M.bind_eq_pure.1 h
  have hp' : x'.id = some p := by rw [getChildren_id hash a hc, hp]
  simp only [hp'] at h
  obtain ⟨b1, hb1, h⟩ := M.bind_eq_pure.1 h
  obtain ⟨⟨psB, c1⟩, h1, h⟩ := M.bind_eq_pure.1 h
  obtain ⟨_, t1, _, ht1, hqu1, hh1⟩ := processChild_handled hash a im h1
  simp only [drawChild_ok hash hh1 ht1, M.pure_bind] at h
  obtain ⟨b2, hb2, h⟩ := M.bind_eq_pure.1 h
  obtain ⟨⟨psC, c2⟩, h2, h⟩ := M.bind_eq_pure.1 h
  obtain ⟨_, t2, _, ht2, hqu2, hh2⟩ := processChild_handled hash a im h2
  simp only [drawChild_ok hash hh2 ht2, M.pure_bind] at h
  obtain ⟨⟨k1, e1⟩, hk1, h⟩ := M.bind_eq_pure.1 h
  obtain ⟨⟨k2, e2⟩, hk2, h⟩ := M.bind_eq_pure.1 h
  obtain ⟨⟨st, g⟩, _, h⟩ := M.bind_eq_pure.1 h
  have hqA : (if pulled = true then
      { ({ ps with queue := q } : PS H) with foundInGdb := ({ ps with queue := q } : PS H).foundInGdb + 1 }
      else { ps with queue := q }).queue = q := by split <;> rfl
  have hqC : psC.queue = q := by rw [hqu2, hqu1]; split <;> rfl
  have hu1 : e1.status = some .unique → e1.id.isSome := by
    obtain ⟨he, -⟩ := getHash_spec hash hk1
    rw [he]
    exact hh1.unique_id hash
  have hu2 : e2.status = some .unique → e2.id.isSome := by
    obtain ⟨he, -⟩ := getHash_spec hash hk2
    rw [he]
    exact hh2.unique_id hash
  have hfin : ∀ {psD : PS H}, psD.nodesChildren = psC.nodesChildren → psD.isSat = psC.isSat →
      psD.uniques = psC.uniques → psD.redundantHits = psC.redundantHits → QIds psD.queue →
      (pure (if e1.value ≠ none ∧ e2.value ≠ none then { psD with leaves := psD.leaves ++ [some p] } else psD,
        dotsFor p b1 t1 c1 ++ dotsFor p b2 t2 c2) : M (PS H × List (Dot H))) = pure (ps', d) →
      (ps'.nodesChildren = psC.nodesChildren ∧ ps'.isSat = psC.isSat ∧ ps'.uniques = psC.uniques ∧
        ps'.redundantHits = psC.redundantHits) ∧ QIds ps'.queue ∧ d = dotsFor p b1 t1 c1 ++ dotsFor p b2 t2 c2 := by
    intro psD f1 f2 f3 f4 f5 he
    have e := (M.pure_inj _ _).1 he
    simp only [Prod.mk.injEq] at e
    rw [← e.1, ← e.2]
    split
    · exact ⟨⟨f1, f2, f3, f4⟩, f5, rfl⟩
    · exact ⟨⟨f1, f2, f3, f4⟩, f5, rfl⟩
  have hmain : (ps'.nodesChildren = psC.nodesChildren ∧ ps'.isSat = psC.isSat ∧ ps'.uniques = psC.uniques ∧
        ps'.redundantHits = psC.redundantHits) ∧ QIds ps'.queue ∧ d = dotsFor p b1 t1 c1 ++ dotsFor p b2 t2 c2 := by
    by_cases hst : st = .success
    · simp only [hst, if_true, M.bind_assoc', M.pure_bind] at h
      obtain ⟨q1, hq1, h⟩ := M.bind_eq_pure.1 h
      obtain ⟨q2, hq2, h⟩ := M.bind_eq_pure.1 h
      refine hfin (psD := { psC with gdb := g, queue := q2 }) rfl rfl rfl rfl ?_ h
      have := hq0
      rw [← hqC] at this
      exact (this.enqueue hu1 hq1).enqueue hu2 hq2
    · simp only [hst, if_false, M.pure_bind] at h
      refine hfin (psD := { psC with gdb := g }) rfl rfl rfl rfl ?_ h
      show QIds psC.queue
      rw [hqC]; exact hq0
  refine ⟨x, p, s1, s2, c1, c2, b1, t1, b2, t2, pulled, _, psB, psC, ⟨q, hx, hqA, hqC⟩, ⟨seen, x', hc⟩, hp, ?_, h1, h2, hb1, hb2,
    ht1, ht2, hmain.2.2, hmain.1, hmain.2.1⟩
  split <;> exact ⟨rfl, rfl, rfl, rfl⟩

theorem workerDot_fst (seen : List H) {ps : PS H} (hq : QIds ps.queue) (d : List (Dot H)) :
    (Prod.fst <$> pyWhile (workerStepDot hash a im seen) (ps, d)) = pyWhile (workerStep hash a im seen) ps := by
  refine pyWhile_map Prod.fst Prod.fst (fun st => QIds st.1.queue) ?_ ?_ hq
  · intro st hs
    unfold workerStepDot workerStep
    split
    · rw [← expandDot_fst hash a im seen (fun x q hx => (hs.pop hx).1), M.map_eq, M.map_eq]
      simp only [M.bind_assoc']
      exact M.bind_congr fun ⟨ps1, d1⟩ _ => rfl
    · rfl
  · intro st st' hs h
    unfold workerStepDot at h
    split at h
    · obtain ⟨⟨ps1, d1⟩, h1, h⟩ := M.bind_eq_pure.1 h
      have e := (M.pure_inj _ _).1 h
      simp only [Sum.inl.injEq] at e
      rw [← e]
      obtain ⟨_, _, _, _, _, _, _, _, _, _, _, _, _, _, hpass⟩ := expandDot_pass hash a im hs h1
      exact hpass.qids
    · have e := (M.pure_inj _ _).1 h
      simp at e

theorem initPS_qids {g : Gdb H} {u : Nat} {s : SetObj H} {ps : PS H} (h : initPS hash a g u s = pure ps) :
    QIds ps.queue := by
  unfold initPS at h
  obtain ⟨⟨k, s'⟩, hk, h⟩ := M.bind_eq_pure.1 h
  obtain ⟨q, hq, h⟩ := M.bind_eq_pure.1 h
  split at h
  · exact absurd h (M.raise_ne_pure _ _)
  · next k' hid =>
    rw [← (M.pure_inj _ _).1 h]
    show QIds q
    refine QIds.insert (q := { useDb := a.useRuntimeDb }) ?_ (by rw [hid]; rfl) hq
    intro _ x hx
    simp at hx

theorem runWorkerDot_fst (seen : List H) (g : Gdb H) (u : Nat) (d : List (Dot H)) (s : SetObj H) :
    (Prod.fst <$> runWorkerDot hash a im seen g u d s) = runWorker hash a im seen g u s := by
  unfold runWorkerDot runWorker
  rw [M.map_eq, M.bind_assoc']
  refine M.bind_congr fun ps hps => ?_
  rw [← M.map_eq]
  exact workerDot_fst hash a im seen (initPS_qids hash a hps) d

theorem workerMsgDot_eq (seen : List H) (g : Gdb H) (d : List (Dot H)) (fails : Bool) (s : SetObj H) :
    workerMsgDot hash a im seen g d fails s = workerMsg hash a im seen g fails s := by
  unfold workerMsgDot workerMsg
  rw [← runWorkerDot_fst hash a im seen g 0 d s]
  split
  · rfl
  · rcases M.cases (runWorkerDot hash a im seen g 0 d s) with e | ⟨x, e⟩ | ⟨y, e⟩ <;> rw [e] <;> rfl

theorem mainDot_fst (seen : List H) (maxT : Nat) (fails : Nat → Bool) (sched : List Bool) {st : MainSt H}
    (hq : QIds st.ps.queue) (d : List (Dot H)) :
    (Prod.fst <$> pyWhile (mainStepDot hash a im seen maxT fails sched) (st, d)) =
      pyWhile (mainStep hash a im seen maxT fails sched) st := by
  refine pyWhile_map Prod.fst Prod.fst (fun st => QIds st.1.ps.queue) ?_ ?_ hq
  · intro st hs
    unfold mainStepDot mainStep
    split
    · rw [← expandDot_fst hash a im seen (fun x q hx => (hs.pop hx).1), M.map_eq, M.map_eq]
      simp only [M.bind_assoc', M.pure_bind, workerMsgDot_eq]
      refine M.bind_congr fun ⟨ps1, d1⟩ _ => ?_
      simp only
      split
      · simp only [M.bind_assoc']
        refine M.bind_congr fun ⟨xs, q⟩ _ => ?_
        simp only [M.bind_assoc']
        exact M.bind_congr fun ps2 _ => rfl
      · rfl
    · rfl
  · intro st st' hs h
    unfold mainStepDot at h
    split at h
    · obtain ⟨⟨ps1, d1⟩, h1, h⟩ := M.bind_eq_pure.1 h
      obtain ⟨_, _, _, _, _, _, _, _, _, _, _, _, _, _, hpass⟩ := expandDot_pass hash a im hs h1
      have hq1 := hpass.qids
      simp only at h
      split at h
      · obtain ⟨⟨xs, q⟩, hpm, h⟩ := M.bind_eq_pure.1 h
        obtain ⟨ps2, hcol, h⟩ := M.bind_eq_pure.1 h
        have e := (M.pure_inj _ _).1 h
        simp only [Sum.inl.injEq] at e
        rw [← e]
        obtain ⟨k1, k2⟩ := hq1.popMany hpm
        refine QIds.collect a sched (st := _) ?_ ?_ hcol
        · exact k2
        · intro t ht
          obtain ⟨i, hi, hti⟩ := List.mem_iff_getElem.1 ht
          simp only [List.getElem_mapIdx] at hti
          rw [← hti]
          exact k1 _ (List.getElem_mem _)
      · have e := (M.pure_inj _ _).1 h
        simp only [Sum.inl.injEq] at e
        rw [← e]
        exact hq1
    · have e := (M.pure_inj _ _).1 h
      simp at e

theorem runMainDot_fst (seen : List H) (g : Gdb H) (maxT : Nat) (fails : Nat → Bool) (sched : List Bool)
    (d : List (Dot H)) (s : SetObj H) :
    (Prod.fst <$> runMainDot hash a im seen g maxT fails sched d s) = runMain hash a im seen g maxT fails sched s := by
  unfold runMainDot runMain
  rw [M.map_eq, M.bind_assoc']
  refine M.bind_congr fun ps hps => ?_
  rw [← M.map_eq]
  exact mainDot_fst hash a im seen maxT fails sched (st := { ps := ps, gen := decide (0 < maxT) })
    (initPS_qids hash a hps) d

theorem prepareRoot_toStr {root s : SetObj H} {h : H} (hp : prepareRoot hash a root = pure (s, h)) :
    ∃ t, s.toStr = pure t ∧ h = hash t ∧ s.id = some h := by
  unfold prepareRoot at hp
  simp only at hp
  obtain ⟨c, _, hp⟩ := M.bind_eq_pure.1 hp
  obtain ⟨⟨k, c'⟩, hk, hp⟩ := M.bind_eq_pure.1 hp
  obtain ⟨hc', hf⟩ := getHash_spec hash hk
  obtain ⟨t, ht, hkt⟩ := hf rfl
  have e := (M.pure_inj _ _).1 hp
  simp only [Prod.mk.injEq] at e
  refine ⟨t, ?_, by rw [← e.2, hkt], ?_⟩
  · rw [← e.1, hc']; exact ht
  · rw [← e.1, ← e.2]

theorem solveDot_fst (env : EnvChoice) (g : Gdb H) (root : SetObj H) :
    (Prod.fst <$> solveDot hash a env g root) = solveSet hash a env g root := by
  unfold solveDot solveSet
  rw [M.map_eq, M.bind_assoc']
  refine M.bind_congr fun b _ => ?_
  rw [M.bind_assoc']
  refine M.bind_congr fun ⟨s, h⟩ hs => ?_
  obtain ⟨t, ht, -⟩ := prepareRoot_toStr hash a hs
  simp only
  generalize (if (a.useGlobalDb && !a.gdbNoMem) = true then g.loadSolved s.clauses.length else []) = solved
  generalize (if (a.useGlobalDb && !a.gdbNoMem) = true then g.loadUnsolved s.clauses.length ++ solved else []) = seen
  generalize (if a.gdbNoMem = true then g.isSolved h else decide (h ∈ solved)) = isS
  cases isS
  · simp only [ht, M.pure_bind, Bool.not_false, if_true]
    split
    · split
      · rfl
      · simp only [M.bind_assoc']
        exact M.bind_congr fun ⟨s, r⟩ _ => rfl
    · rw [← runMainDot_fst hash a (inputMode a) _ g _ env.fails env.sched [Dot.node h b t none] s, M.map_eq]
      simp only [M.bind_assoc', M.pure_bind]
      refine M.bind_congr fun ⟨ps, d⟩ _ => ?_
      simp only
      split
      · rfl
      · simp only [M.bind_assoc']
        exact M.bind_congr fun ⟨s, r⟩ _ => rfl
  · simp only [Bool.not_true, Bool.false_eq_true, if_false]
    cases g.getSetData h <;> rfl

end NDP
