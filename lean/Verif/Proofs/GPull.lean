import Verif.Proofs.GFresh
/- A run whose root and children are in the table: everything is pulled, so it goes through exactly when the table is
complete below the root. -/
namespace NDP
open Spec SetObj
variable {H : Type} [DecidableEq H] (hash : Str → H) (a : Args) (im : Mode)

theorem childFromGdb_none {g : Gdb H} {k : H} :
    childFromGdb hash g k ≠ none ↔ (k ≠ hash ['T'] → k ≠ hash ['F'] → k ∈ Dict.keys g) := by
  unfold childFromGdb Gdb.getSetData
  by_cases h1 : k = hash ['T']
  · simp [h1]
  · by_cases h2 : k = hash ['F']
    · rw [if_neg h1, if_pos h2]; simp [h2]
    · rw [if_neg h1, if_neg h2]
      cases h : Dict.get? g k with
      | none =>
        have := (Dict.get?_eq_none_iff _ _).1 h
        simp [h1, h2, this]
      | some r =>
        have := Dict.mem_keys_of_get? h
        simp [this]

theorem stored_iff {g : Gdb H} {h : H} : getChildrenFromGdb hash g h ≠ none ↔ Stored hash g h := by
  unfold getChildrenFromGdb Gdb.getChildren Stored Links
  cases hr : Dict.get? g h with
  | none =>
    have := (Dict.get?_eq_none_iff _ _).1 hr
    simp [this]
  | some r =>
    have hm := Dict.mem_keys_of_get? hr
    simp only [Option.map_some]
    constructor
    · intro hn
      refine ⟨hm, ?_⟩
      rintro k ⟨r', e, hk, ht, hf⟩
      have e := Option.some.inj e
      subst e
      rcases hk with rfl | rfl
      · apply (childFromGdb_none hash).1 ?_ ht hf
        intro h1; simp [h1] at hn
      · apply (childFromGdb_none hash).1 ?_ ht hf
        intro h1
        apply hn
        cases childFromGdb hash g r.cid1 <;> simp [h1]
    · rintro ⟨_, hk⟩
      have h1 : childFromGdb hash g r.cid1 ≠ none :=
        (childFromGdb_none hash).2 fun ht hf => hk _ ⟨r, rfl, Or.inl rfl, ht, hf⟩
      have h2 : childFromGdb hash g r.cid2 ≠ none :=
        (childFromGdb_none hash).2 fun ht hf => hk _ ⟨r, rfl, Or.inr rfl, ht, hf⟩
      cases e1 : childFromGdb hash g r.cid1 with
      | none => exact absurd e1 h1
      | some s1 =>
        cases e2 : childFromGdb hash g r.cid2 with
        | none => exact absurd e2 h2
        | some s2 => simp

/-- A node of the initial table is recognised. -/
theorem GInv.inTable {R F0 : Cnf} {S : Str → Prop} {g0 : Gdb H} {seen : List H} (hC : Ctx hash a F0 S g0 seen)
    {ps : PS H} {x : SetObj H} {l : List (SetObj H)} (h : GInv hash a R F0 S g0 ps (x :: l))
    (hk : hid hash x ∈ Dict.keys g0) : isSetInGdb a seen ps.gdb (hid hash x) = true := by
  obtain ⟨hxi, hxb, hxp, hxid, hxc, hxn⟩ := h.items x (by simp)
  obtain ⟨r, hr⟩ := Dict.exists_get?_of_mem hk
  unfold isSetInGdb
  by_cases hm : a.gdbNoMem = true
  · rw [if_pos hm]
    have := h.old _ _ hr
    simp [Gdb.hashExists, Dict.contains, this]
  · rw [if_neg hm]
    obtain ⟨mode, G, y, ys, cs, hG, hwf, hb, hkey, hlen, _⟩ := hC.sound _ _ hr
    have : raws x.clauses = G := by
      apply textOf_inj hxi.1.wf.1 (by rw [hG]; simp) (fun c hc => (hxi.1.wf.2 c hc).1) (fun c hc => (hwf c hc).1)
      rw [← hb]
      exact hC.clash _ _ (hC.below _ hxb) (hC.body _ _ hr) (by rw [← hxi.1.hid_eq hash, hkey])
    have hs := hC.seen (by simpa using hm) _ _ hr (by rw [hlen, ← this]; exact hxb.length)
    simp [hs]

/-- Invariant of a run that only pulls. -/
structure PInv (R F0 : Cnf) (S : Str → Prop) (g0 : Gdb H) (ps : PS H) (l : List (SetObj H)) : Prop where
  ginv : GInv hash a R F0 S g0 ps l
  gdb : ps.gdb = g0
  done : ∀ k ∈ ps.nodesChildren.keys, k ∈ l.map (hid hash) ∨
    (Stored hash g0 k ∧ ∀ j, Links hash g0 k j → j ∈ ps.nodesChildren.keys)
  bare : ∀ x ∈ l, Bare x ∨ Stored hash g0 (hid hash x)
  sol : ps.solution = none ∨ ps.solution = some []
  reach : ∀ k ∈ ps.nodesChildren.keys, Relation.ReflTransGen (Links hash g0) (hash (textOf F0)) k
  nd : ps.nodesChildren.keys.Nodup
  closed : ClosedGraph ps.nodesChildren

theorem GChild.sol {pid : H} {k : Kid H} {ps ps' : PS H} {news : List (SetObj H)} (h : GChild pid k ps ps' news)
    (hk : k.ev = []) (hs : ps.solution = none ∨ ps.solution = some []) : ps'.solution = none ∨ ps'.solution = some [] := by
  cases h with
  | uniq => exact hs
  | red => exact hs
  | const v hv =>
    simp only
    split
    · right; rw [hk]; rfl
    · exact hs

theorem GChild.nd {pid : H} {k : Kid H} {ps ps' : PS H} {news : List (SetObj H)} (h : GChild pid k ps ps' news)
    (hs : ps.nodesChildren.keys.Nodup) : ps'.nodesChildren.keys.Nodup := by
  cases h with
  | const => exact hs
  | uniq => exact Dict.nodup_keys_set _ _ _ (Dict.nodup_keys_set _ _ _ hs)
  | red => exact Dict.nodup_keys_set _ _ _ hs

theorem weight_news {x : SetObj H} (db : Bool) : ∀ m : List (SetObj H), (∀ n ∈ m, size (raws n.clauses) < size (raws x.clauses)) →
    m.length ≤ 2 → weight (m.map (store db)) < 3 ^ size (raws x.clauses) := by
  intro m hm hm2
  obtain ⟨N, hN⟩ : ∃ N, size (raws x.clauses) = N := ⟨_, rfl⟩
  rw [hN] at hm ⊢
  match m, hm2 with
  | [], _ => simp [weight]
  | [p], _ =>
    have := hm p (by simp)
    simp only [weight, List.map_cons, List.map_nil, List.sum_cons, List.sum_nil, raws_store]
    exact Nat.pow_lt_pow_right (by norm_num) this
  | [p, q], _ =>
    have h1 := hm p (by simp)
    have h2 := hm q (by simp)
    simp only [weight, List.map_cons, List.map_nil, List.sum_cons, List.sum_nil, raws_store]
    obtain ⟨N, rfl⟩ : ∃ M, N = M + 1 := ⟨N - 1, by omega⟩
    have e1 : 3 ^ size (raws p.clauses) ≤ 3 ^ N := Nat.pow_le_pow_right (by norm_num) (by omega)
    have e2 : 3 ^ size (raws q.clauses) ≤ 3 ^ N := Nat.pow_le_pow_right (by norm_num) (by omega)
    have e3 : 0 < 3 ^ N := Nat.pow_pos (by norm_num)
    rw [Nat.pow_succ]; omega
  | _ :: _ :: _ :: _, hm2 => simp at hm2

theorem KidFor.size_lt {R : Cnf} {x : SetObj H} {b : Bool} {k : Kid H} (hx : Shape x) (hk : KidFor hash R x b k)
    (hv : k.value = none) : size (raws k.item.clauses) < size (raws x.clauses) := by
  obtain ⟨_, _, ⟨mode, hN⟩, _⟩ := hk.n hv
  rw [hN.size]
  exact size_subF_lt hx.wf b

theorem KidFor.const_dig {R : Cnf} {x : SetObj H} {b : Bool} {k : Kid H} (hk : KidFor hash R x b k)
    (h1 : k.dig ≠ hash ['T']) (h2 : k.dig ≠ hash ['F']) : k.value = none := by
  match hv : k.value with
  | none => rfl
  | some true => exact absurd (hk.t hv).2.1 h1
  | some false => exact absurd (hk.f hv).2 h2

/-- The digest of a pulled node is not that of a constant. -/
theorem KidFor.node_dig {R F0 : Cnf} {S : Str → Prop} {g0 : Gdb H} {seen : List H} (hC : Ctx hash a F0 S g0 seen)
    {x : SetObj H} (hxb : Below F0 (raws x.clauses)) {b : Bool} {k : Kid H} (hk : KidFor hash R x b k)
    (hv : k.value = none) : k.dig ≠ hash ['T'] ∧ k.dig ≠ hash ['F'] := by
  obtain ⟨h1, h2, ⟨mode, hN⟩, h4, _, h6, _⟩ := hk.n hv
  have hb : Below F0 (raws k.item.clauses) := Below.child hxb h1 h2 hN
  have hne := textOf_ne_const (fun c hc => (h6.1.wf.2 c hc).1)
  rw [← h4, h6.1.hid_eq hash]
  exact ⟨fun e => hne.1 (hC.clash _ _ (hC.below _ hb) hC.t e), fun e => hne.2 (hC.clash _ _ (hC.below _ hb) hC.f e)⟩

theorem PInv.step {R F0 : Cnf} {S : Str → Prop} {g0 : Gdb H} {seen : List H} (hR : Proper R) (hC : Ctx hash a F0 S g0 seen)
    (hg : a.useGlobalDb = true)
    {ps : PS H} {x : SetObj H} {l : List (SetObj H)} (h : PInv hash a R F0 S g0 ps (x :: l))
    (hst : Stored hash g0 (hid hash x)) :
    ∃ ps' l', expand hash a im seen ps = pure ps' ∧ PInv hash a R F0 S g0 ps' l' ∧ weight l' < weight (x :: l) := by
  obtain ⟨hxi, hxb, hxp, hxid, hxc, hxn⟩ := h.ginv.items x (by simp)
  have hin := h.ginv.inTable hash a hC hst.1
  have hch : getChildrenFromGdb hash ps.gdb (hid hash x) ≠ none := by rw [stored_iff, h.gdb]; exact hst
  obtain ⟨ps', hrun, k1, k2, n1, n2, ps0, ps1, ps2, nv, hp, hpl⟩ := expandAt_pulled hash a im (gw := ps.gdb) seen h.ginv.rep hxi
    (by rw [h.ginv.db]; exact hxp) hxid hxn (by rw [h.ginv.db]; exact h.ginv.rows) hxc hC.clash h.ginv.table
    (h.ginv.texts hash a hC) (Gdb.le_refl _) hg hin hch
  obtain ⟨hadv, hmono, hedges, hkeys, hnews, hlen, _⟩ := h.ginv.advance hash a im hR hC hp (Or.inr ⟨hg, hin, hpl⟩)
  obtain ⟨r, hr, d1, d2, c1, c2, ev1, ev2⟩ := hpl
  rw [h.gdb] at hr c1 c2
  have hw : wants a seen ps.gdb (hid hash x) = false := by unfold wants; rw [hin]; simp
  have hgdb : ps'.gdb = g0 := by rw [hp.final]; simp only [hw, Bool.false_eq_true, if_false]; exact h.gdb
  have hnc : ps'.nodesChildren = ps2.nodesChildren := by rw [hp.final]
  have e0 := hp.start
  have hlink : ∀ k, (k = k1 ∨ k = k2) → k.value = none → Links hash g0 (hid hash x) k.dig := by
    rintro k hk hv
    rcases hk with rfl | rfl
    · obtain ⟨t, f⟩ := hp.kid1.node_dig hash a hC hxb hv
      exact ⟨r, hr, Or.inl d1, t, f⟩
    · obtain ⟨t, f⟩ := hp.kid2.node_dig hash a hC hxb hv
      exact ⟨r, hr, Or.inr d2, t, f⟩
  have hnid : ∀ n ∈ n1 ++ n2, Bare n ∧ Shape n ∧ size (raws n.clauses) < size (raws x.clauses) ∧
      Links hash g0 (hid hash x) (hid hash n) := by
    intro n hn
    rcases hnews n hn with ⟨rfl, hv⟩ | ⟨rfl, hv⟩
    · refine ⟨(c1 hv).2, (hp.kid1.n hv).2.2.2.2.2.1.1, hp.kid1.size_lt hash hxi.1 hv, ?_⟩
      rw [(hp.kid1.n hv).2.2.2.1]; exact hlink _ (Or.inl rfl) hv
    · refine ⟨(c2 hv).2, (hp.kid2.n hv).2.2.2.2.2.1.1, hp.kid2.size_lt hash hxi.1 hv, ?_⟩
      rw [(hp.kid2.n hv).2.2.2.1]; exact hlink _ (Or.inr rfl) hv
  have hxk : hid hash x ∈ ps.nodesChildren.keys := Dict.mem_keys_of_get? hxn
  have hmapid : ((n1 ++ n2).map (store a.useRuntimeDb)).map (hid hash) = (n1 ++ n2).map (hid hash) := by
    rw [List.map_map]
    apply List.map_congr_left
    intro n hn
    exact (hnid n hn).2.1.hid_store hash a.useRuntimeDb
  refine ⟨ps', _, by rw [expand_eq]; exact hrun, ⟨hadv, hgdb, ?_, ?_, ?_, ?_, ?_, ?_⟩, ?_⟩
  · intro k hk
    rw [List.map_append, hmapid]
    rcases hkeys k hk with hk' | hk'
    · rcases h.done k hk' with hm | ⟨h1, h2⟩
      · rw [List.map_cons, List.mem_cons] at hm
        rcases hm with rfl | hm
        · right
          refine ⟨hst, ?_⟩
          rintro j ⟨r', hr', hj, ht, hf⟩
          rw [hr] at hr'
          have := Option.some.inj hr'
          subst this
          apply hedges
          rcases hj with rfl | rfl
          · rw [← d1] at ht hf ⊢
            have := hp.kid1.const_dig hash ht hf
            exact List.mem_append_left _ (by simp [Kid.edges, this])
          · rw [← d2] at ht hf ⊢
            have := hp.kid2.const_dig hash ht hf
            exact List.mem_append_right _ (by simp [Kid.edges, this])
        · exact Or.inl (List.mem_append_left _ hm)
      · exact Or.inr ⟨h1, fun j hj => hmono _ (h2 j hj)⟩
    · exact Or.inl (List.mem_append_right _ hk')
  · intro y hy
    rcases List.mem_append.1 hy with hy | hy
    · exact h.bare y (by simp [hy])
    · obtain ⟨n, hn, rfl⟩ := List.mem_map.1 hy
      exact Or.inl ((hnid n hn).1.store _)
  · have : ps'.solution = ps2.solution := by rw [hp.final]
    rw [this]
    apply hp.step2.sol ev2
    apply hp.step1.sol ev1
    rw [e0]; exact h.sol
  · intro k hk
    rcases hkeys k hk with hk' | hk'
    · exact h.reach k hk'
    · obtain ⟨n, hn, rfl⟩ := List.mem_map.1 hk'
      exact (h.reach _ hxk).tail (hnid n hn).2.2.2
  · rw [hnc]
    apply hp.step2.nd
    apply hp.step1.nd
    rw [e0]; exact h.nd
  · intro k ks j hk hj
    have hn0 : ps0.nodesChildren.get? (hid hash x) = some [] := by rw [e0]; exact hxn
    obtain ⟨g1, g2, _⟩ := hp.step1.graph hash (fun hv => (hp.kid1.n hv).2.2.2.1) hn0
    obtain ⟨j1, j2, _⟩ := hp.step2.graph hash (fun hv => (hp.kid2.n hv).2.2.2.1) g1
    rw [hnc] at hk
    by_cases e : k = hid hash x
    · rw [e, j1] at hk
      have := Option.some.inj hk
      rw [← this] at hj
      exact hedges j (by simpa using hj)
    · rw [j2 k e] at hk
      split at hk
      · have := Option.some.inj hk
        rw [← this] at hj; simp at hj
      · rw [g2 k e] at hk
        split at hk
        · have := Option.some.inj hk
          rw [← this] at hj; simp at hj
        · apply hmono
          rw [e0] at hk
          exact h.closed k ks j hk hj
  · rw [weight_append]
    have hw := weight_news (x := x) a.useRuntimeDb (n1 ++ n2) (fun n hn => (hnid n hn).2.2.1) hlen
    have : weight (x :: l) = 3 ^ size (raws x.clauses) + weight l := by simp [weight]
    omega

/-- A bare node that cannot be pulled stops the process. -/
theorem PInv.stuck {R F0 : Cnf} {S : Str → Prop} {g0 : Gdb H} {seen : List H} (hR : Proper R) (hC : Ctx hash a F0 S g0 seen)
    {ps ps' : PS H} {x : SetObj H} {l : List (SetObj H)} (h : PInv hash a R F0 S g0 ps (x :: l))
    (hrun : expand hash a im seen ps = pure ps') : Stored hash g0 (hid hash x) := by
  obtain ⟨hxi, hxb, hxp, hxid, hxc, hxn⟩ := h.ginv.items x (by simp)
  rw [expand_eq] at hrun
  obtain ⟨k1, k2, n1, n2, ps0, ps1, ps2, nv, hp, hor⟩ := expandAt_pass hash a im seen hR h.ginv.rep hxi
    (by rw [h.ginv.db]; exact hxp) hxid hxn (by rw [h.ginv.db]; exact h.ginv.rows) hxc hC.clash h.ginv.table
    (h.ginv.texts hash a hC) (Gdb.le_refl _) hrun
  rcases hor with ⟨ht, lft, rgt, hev, _⟩ | ⟨_, _, r, hr, d1, d2, c1, c2, _⟩
  · rcases h.bare x (by simp) with hb | hs
    · rw [evaluate_bare hxi.1 hb.1] at hev
      exact absurd hev (M.raise_ne_pure _ _)
    · exact hs
  · rw [h.gdb] at hr c1 c2
    refine ⟨Dict.mem_keys_of_get? hr, ?_⟩
    rintro k ⟨r', hr', hk, ht, hf⟩
    rw [hr] at hr'
    have := Option.some.inj hr'
    subst this
    rw [Dict.mem_keys_iff]
    rcases hk with rfl | rfl
    · rw [← d1] at ht hf ⊢; exact (c1 (hp.kid1.const_dig hash ht hf)).1
    · rw [← d2] at ht hf ⊢; exact (c2 (hp.kid2.const_dig hash ht hf)).1

theorem PInv.init (g : Gdb H) (u : Nat) {R : Cnf} {s : SetObj H} (h : Ready hash a R s) {S : Str → Prop} {seen : List H}
    (hC : Ctx hash a (raws s.clauses) S g seen) (hst : Stored hash g (hid hash s)) {ps : PS H} (hrun : initPS hash a g u s = pure ps) :
    ∃ l, PInv hash a R (raws s.clauses) S g ps l := by
  obtain ⟨ps', h0, hi, hu, hsat, hnc⟩ := initPS_ok hash a Mode.flo g u h
  have e := (M.pure_inj _ _).1 (hrun.symm.trans h0)
  subst e
  obtain ⟨hl, hps⟩ := initPS_ginv hash a g u h hC hrun
  have hgdb : ps.gdb = g ∧ ps.solution = none := by
    unfold initPS at hrun
    obtain ⟨⟨_, c⟩, _, hrun⟩ := M.bind_eq_pure.1 hrun
    obtain ⟨_, _, hrun⟩ := M.bind_eq_pure.1 hrun
    split at hrun
    · exact absurd hrun (M.raise_ne_pure _ _)
    · rw [← (M.pure_inj _ _).1 hrun]; exact ⟨rfl, rfl⟩
  have key : ∀ x ∈ hl, hid hash x = hid hash s := by
    intro x hx
    have := (hps.items x hx).2.2.2.2.2
    have := Dict.mem_keys_of_get? this
    rw [hnc] at this
    simpa using this
  have hne : hl ≠ [] := by
    rintro rfl
    have h1 := hps.rep.size
    have h2 := hi.rep.size
    rw [h1] at h2
    simp at h2
  refine ⟨hl, hps, hgdb.1, ?_, ?_, Or.inl hgdb.2, ?_, by rw [hnc]; simp, ?_⟩
  · intro k hk
    left
    rw [hnc] at hk
    have hk : k = hid hash s := by simpa using hk
    match hl, hne, key with
    | x :: _, _, key => rw [hk, ← key x (by simp)]; simp
  · intro x hx
    right
    rw [key x hx]; exact hst
  · intro k hk
    rw [hnc] at hk
    have : k = hid hash s := by simpa using hk
    rw [this, h.tracks.shape.hid_eq hash]
  · intro k ks j hk hj
    rw [hnc] at hk
    simp only [Dict.get?_cons, Dict.get?_nil] at hk
    split at hk
    · have := Option.some.inj hk
      rw [← this] at hj; simp at hj
    · simp at hk

/-- The end of such a run. -/
structure PEnd (R F0 : Cnf) (S : Str → Prop) (g0 : Gdb H) (ps : PS H) : Prop where
  inv : PInv hash a R F0 S g0 ps []

theorem PInv.ends {R F0 : Cnf} {S : Str → Prop} {g0 : Gdb H} {ps : PS H} {l : List (SetObj H)}
    (h : PInv hash a R F0 S g0 ps l) (hk : keepGoing a ps = false) : l = [] := by
  unfold keepGoing Queue.isEmpty at hk
  rw [h.ginv.rep.size] at hk
  have ht : truthy ps.solution = false := by rcases h.sol with e | e <;> rw [e] <;> rfl
  rw [ht] at hk
  cases l <;> simp_all

theorem PEnd.complete {R F0 : Cnf} {S : Str → Prop} {g0 : Gdb H} {ps : PS H} (h : PEnd hash a R F0 S g0 ps) :
    CompleteBelow hash g0 (hash (textOf F0)) := by
  have key : ∀ k, Relation.ReflTransGen (Links hash g0) (hash (textOf F0)) k → k ∈ ps.nodesChildren.keys := by
    intro k hk
    induction hk with
    | refl => exact h.inv.ginv.root
    | tail _ hl ih =>
      rcases h.inv.done _ ih with hm | ⟨_, h2⟩
      · simp at hm
      · exact h2 _ hl
  intro k hk
  rcases h.inv.done _ (key k hk) with hm | ⟨h1, _⟩
  · simp at hm
  · exact h1.1

/-- A run whose root is stored goes through exactly when everything below the root is stored. -/
theorem runMain_pulled (g : Gdb H) {fails : Nat → Bool} {sched : List Bool} {R : Cnf} (hR : Proper R) {s : SetObj H}
    (h : Ready hash a R s) {S : Str → Prop} {seen : List H} (hC : Ctx hash a (raws s.clauses) S g seen)
    (hg : a.useGlobalDb = true) (hst : Stored hash g (hid hash s)) :
    (∀ ps, runMain hash a im seen g 0 fails sched s = pure ps → PEnd hash a R (raws s.clauses) S g ps) ∧
    (CompleteBelow hash g (hid hash s) → ∃ ps, runMain hash a im seen g 0 fails sched s = pure ps) := by
  constructor
  · intro ps hrun
    unfold runMain at hrun
    obtain ⟨ps0, h0, hrun⟩ := M.bind_eq_pure.1 hrun
    obtain ⟨l0, hi⟩ := PInv.init hash a g 1 h hC hst h0
    refine pyWhile_partial (step := mainStep hash a im seen 0 fails sched)
      (fun st => ∃ l, PInv hash a R (raws s.clauses) S g st.ps l)
      (fun ps => PEnd hash a R (raws s.clauses) S g ps) ?_ ?_ _ _ ⟨l0, hi⟩ hrun
    · rintro st st' ⟨l, hl⟩ hst'
      rw [mainStep_zero] at hst'
      split at hst'
      · next hk =>
        obtain ⟨ps1, h1, hst'⟩ := M.bind_eq_pure.1 hst'
        have e := (M.pure_inj _ _).1 hst'
        have e : { st with ps := ps1 } = st' := by simpa using e
        rw [← e]
        match l, hl with
        | [], hl =>
          unfold keepGoing Queue.isEmpty at hk
          rw [hl.ginv.rep.size] at hk
          simp at hk
        | x :: l, hl =>
          obtain ⟨ps2, l', e1, e2, _⟩ := hl.step hash a im hR hC hg (hl.stuck hash a im hR hC h1)
          have := (M.pure_inj _ _).1 (h1.symm.trans e1)
          subst this
          exact ⟨l', e2⟩
      · have e := (M.pure_inj _ _).1 hst'
        simp at e
    · rintro st r ⟨l, hl⟩ hst'
      rw [mainStep_zero] at hst'
      split at hst'
      · obtain ⟨ps1, h1, hst'⟩ := M.bind_eq_pure.1 hst'
        have e := (M.pure_inj _ _).1 hst'
        simp at e
      · next hk =>
        have e := (M.pure_inj _ _).1 hst'
        have e : st.ps = r := by simpa using e
        rw [← e]
        have := hl.ends hash a (by simpa using hk)
        subst this
        exact ⟨hl⟩
  · intro hcomp
    obtain ⟨ps0, h0, _⟩ := initPS_ok hash a im g 1 h
    obtain ⟨l0, hi⟩ := PInv.init hash a g 1 h hC hst h0
    unfold runMain
    rw [h0, M.pure_bind]
    obtain ⟨ps, hps, _⟩ := pyWhile_totalN (step := mainStep hash a im seen 0 fails sched)
      (fun n st => ∃ l, PInv hash a R (raws s.clauses) S g st.ps l ∧ weight l = n) (fun _ => True) (by
        rintro n st ⟨l, hl, hw⟩
        rw [mainStep_zero]
        by_cases hk : keepGoing a st.ps = true
        · left
          rw [if_pos hk]
          match l, hl, hw with
          | [], hl, _ =>
            unfold keepGoing Queue.isEmpty at hk
            rw [hl.ginv.rep.size] at hk
            simp at hk
          | x :: l, hl, hw =>
            have hx : hid hash x ∈ st.ps.nodesChildren.keys := Dict.mem_keys_of_get? (hl.ginv.items x (by simp)).2.2.2.2.2
            have hr := hl.reach _ hx
            rw [← h.tracks.shape.hid_eq hash] at hr
            have hsx : Stored hash g (hid hash x) := ⟨hcomp _ hr, fun k hk => hcomp _ (hr.tail hk)⟩
            obtain ⟨ps', l', e1, e2, e3⟩ := hl.step hash a im hR hC hg hsx
            exact ⟨{ st with ps := ps' }, weight l', by rw [e1]; rfl, ⟨l', e2, rfl⟩, by omega⟩
        · right
          rw [if_neg hk]
          exact ⟨_, rfl, trivial⟩) _ { ps := ps0, gen := decide (0 < 0) } ⟨l0, hi, rfl⟩
    exact ⟨ps, hps⟩

end NDP
