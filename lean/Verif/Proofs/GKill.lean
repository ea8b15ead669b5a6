import Verif.Proofs.GSolve
/- A run on the empty global table, killed: the rows of the nodes still in the queue are missing, and a run on what is
left stops with an exception. -/
namespace NDP
open Spec SetObj
variable {H : Type} [DecidableEq H] (hash : Str → H) (a : Args) (im : Mode)

/-- Invariant of a run on the empty table. -/
structure KInv (R F0 : Cnf) (S : Str → Prop) (ps : PS H) (l : List (SetObj H)) : Prop where
  ginv : GInv hash a R F0 S [] ps l
  rows : ∀ k ∈ ps.nodesChildren.keys, k ∉ l.map (hid hash) → k ∈ Dict.keys ps.gdb
  reach : ∀ k ∈ ps.nodesChildren.keys, Relation.ReflTransGen (Links hash ps.gdb) (hash (textOf F0)) k
  marks : ∀ p ∈ ps.gdb, p.2.uniqueNodes = 0

theorem Links.mono {g : Gdb H} {h : H} {row : Row H} (hn : h ∉ Dict.keys g) {x y : H} (hl : Links hash g x y) :
    Links hash (Dict.set g h row) x y := by
  obtain ⟨r, hr, h1, h2⟩ := hl
  refine ⟨r, ?_, h1, h2⟩
  rw [Dict.get?_set_ne, hr]
  intro e
  exact hn (e ▸ Dict.mem_keys_of_get? hr)

theorem KInv.step {R F0 : Cnf} {S : Str → Prop} (hR : Proper R) (hC : Ctx hash a F0 S ([] : Gdb H) [])
    (hg : a.useGlobalDb = true) {ps ps' : PS H} {x : SetObj H} {l : List (SetObj H)} (h : KInv hash a R F0 S ps (x :: l))
    (hrun : expand hash a im [] ps = pure ps') :
    ∃ news row, KInv hash a R F0 S ps' (l ++ news) ∧ news.length ≤ 2 ∧
      (∀ n ∈ news, hid hash n ∉ ps.nodesChildren.keys) ∧
      (∀ k ∈ ps.nodesChildren.keys, k ∈ ps'.nodesChildren.keys) ∧
      hid hash x ∉ Dict.keys ps.gdb ∧ ps'.gdb = Dict.set ps.gdb (hid hash x) row ∧
      ∀ k, Links hash ps'.gdb (hid hash x) k → k ∈ ps'.nodesChildren.keys := by
  obtain ⟨hxi, hxb, hxp, hxid, hxc, hxn⟩ := h.ginv.items x (by simp)
  have hnew : hid hash x ∉ Dict.keys ps.gdb := by
    intro hm
    rcases h.ginv.keys _ hm with h0 | ⟨_, h0⟩
    · simp [Dict.keys] at h0
    · exact h0 (by simp)
  have hin : isSetInGdb a [] ps.gdb (hid hash x) = false := by
    unfold isSetInGdb
    split
    · have := (Dict.get?_eq_none_iff _ _).2 hnew
      simp [Gdb.hashExists, Dict.contains, this]
    · simp
  rw [expand_eq] at hrun
  obtain ⟨k1, k2, n1, n2, ps0, ps1, ps2, nv, hp, hor⟩ := expandAt_pass hash a im [] hR h.ginv.rep hxi
    (by rw [h.ginv.db]; exact hxp) hxid hxn (by rw [h.ginv.db]; exact h.ginv.rows) hxc hC.clash h.ginv.table
    (h.ginv.texts hash a hC) (Gdb.le_refl _) hrun
  obtain ⟨hadv, hmono, hedges, hkeys, hnews, hlen, hnone⟩ := h.ginv.advance hash a im hR hC hp hor
  have hw : wants a [] ps.gdb (hid hash x) = true := by unfold wants; rw [hin, hg]; rfl
  obtain ⟨row, hrow⟩ : ∃ row : Row H, row = { body := bodyStr x.clauses, cid1 := k1.dig, cid2 := k2.dig, numClauses := x.clauses.length, numVars := nv } := ⟨_, rfl⟩
  have hgdb : ps'.gdb = Dict.set ps.gdb (hid hash x) row := by
    rw [hp.final]
    simp only [hw, if_true]
    unfold Gdb.insertRow
    rw [if_neg, ← hrow]
    intro hcon
    exact hnew ((Dict.mem_keys_iff _ _).2 hcon)
  have hrx : Dict.get? ps'.gdb (hid hash x) = some row := by rw [hgdb]; simp
  have hnid : ∀ n ∈ n1 ++ n2, Shape n ∧ Links hash ps'.gdb (hid hash x) (hid hash n) := by
    intro n hn
    rcases hnews n hn with ⟨rfl, hv⟩ | ⟨rfl, hv⟩
    · refine ⟨(hp.kid1.n hv).2.2.2.2.2.1.1, ?_⟩
      rw [(hp.kid1.n hv).2.2.2.1]
      obtain ⟨t, f⟩ := hp.kid1.node_dig hash a hC hxb hv
      exact ⟨row, hrx, Or.inl (by rw [hrow]), t, f⟩
    · refine ⟨(hp.kid2.n hv).2.2.2.2.2.1.1, ?_⟩
      rw [(hp.kid2.n hv).2.2.2.1]
      obtain ⟨t, f⟩ := hp.kid2.node_dig hash a hC hxb hv
      exact ⟨row, hrx, Or.inr (by rw [hrow]), t, f⟩
  have hmapid : ((n1 ++ n2).map (store a.useRuntimeDb)).map (hid hash) = (n1 ++ n2).map (hid hash) := by
    rw [List.map_map]
    apply List.map_congr_left
    intro n hn
    exact (hnid n hn).1.hid_store hash a.useRuntimeDb
  have hxk : hid hash x ∈ ps.nodesChildren.keys := Dict.mem_keys_of_get? hxn
  have hlift : ∀ u v, Relation.ReflTransGen (Links hash ps.gdb) u v → Relation.ReflTransGen (Links hash ps'.gdb) u v := by
    intro u v huv
    rw [hgdb]
    induction huv with
    | refl => exact .refl
    | tail _ hl ih => exact ih.tail (hl.mono hash hnew)
  refine ⟨_, row, ⟨hadv, ?_, ?_, ?_⟩, by simpa using hlen, ?_, hmono, hnew, hgdb, ?_⟩
  · intro k hk hn
    rw [List.map_append, hmapid] at hn
    rw [hgdb, Dict.mem_keys_set]
    rcases hkeys k hk with hk | hk
    · by_cases e : k = hid hash x
      · exact Or.inl e
      · right
        apply h.rows k hk
        rw [List.map_cons, List.mem_cons]
        rintro (e' | hm)
        · exact e e'
        · exact hn (List.mem_append_left _ hm)
    · exact absurd (List.mem_append_right _ hk) hn
  · intro k hk
    rcases hkeys k hk with hk | hk
    · exact hlift _ _ (h.reach k hk)
    · obtain ⟨n, hn, rfl⟩ := List.mem_map.1 hk
      exact (hlift _ _ (h.reach _ hxk)).tail (hnid n hn).2
  · intro p hp'
    rw [hgdb, Dict.set_of_not_mem _ _ _ hnew] at hp'
    rcases List.mem_append.1 hp' with hp' | hp'
    · exact h.marks p hp'
    · rw [List.mem_singleton] at hp'
      rw [hp', hrow]
  · intro n hn hm
    have : hid hash n ∈ ((n1 ++ n2).map (store a.useRuntimeDb)).map (hid hash) := List.mem_map.2 ⟨n, hn, rfl⟩
    rw [hmapid] at this
    obtain ⟨m, hm1, hm2⟩ := List.mem_map.1 this
    have h1 := hnone m hm1
    rw [hm2, Dict.get?_eq_none_iff] at h1
    exact h1 hm
  · rintro k ⟨r', hr', hk, ht, hf⟩
    rw [hrx] at hr'
    have := Option.some.inj hr'
    rw [← this, hrow] at hk
    apply hedges
    rcases hk with rfl | rfl
    · have := hp.kid1.const_dig hash ht hf
      exact List.mem_append_left _ (by simp [Kid.edges, this])
    · have := hp.kid2.const_dig hash ht hf
      exact List.mem_append_right _ (by simp [Kid.edges, this])

/-- After `n` passes: the children of the root have been met, and are not in the queue behind position `3 - n`. -/
structure Early (F0 : Cnf) (n : Nat) (ps : PS H) (l : List (SetObj H)) : Prop where
  zero : n = 0 → ps.gdb = [] ∧ l.length = 1 ∧ ∀ x ∈ l, hid hash x = hash (textOf F0)
  kids : n ≠ 0 → ∃ K : List H, hash (textOf F0) ∈ K ∧ (∀ k ∈ K, k ∈ ps.nodesChildren.keys) ∧
    (∀ k, Links hash ps.gdb (hash (textOf F0)) k → k ∈ K) ∧ hash (textOf F0) ∈ Dict.keys ps.gdb ∧
    ∀ k ∈ K, k ∉ (l.drop (3 - n)).map (hid hash)

theorem KInv.early {R F0 : Cnf} {S : Str → Prop} (hR : Proper R) (hC : Ctx hash a F0 S ([] : Gdb H) [])
    (hg : a.useGlobalDb = true) {ps0 : PS H} {l0 : List (SetObj H)} (h0 : KInv hash a R F0 S ps0 l0) (he : Early hash F0 0 ps0 l0) :
    ∀ {n : Nat} {ps : PS H}, Passes hash a im [] n ps0 ps → ∃ l, KInv hash a R F0 S ps l ∧ Early hash F0 n ps l := by
  intro n ps hp
  induction hp with
  | refl => exact ⟨l0, h0, he⟩
  | @step n ps0 ps1 ps2 hp hgo hrun ih =>
    obtain ⟨l, hk, he⟩ := ih h0 he
    match l, hk, he with
    | [], hk, _ =>
      unfold keepGoing Queue.isEmpty at hgo
      rw [hk.ginv.rep.size] at hgo
      simp at hgo
    | x :: l, hk, he =>
      obtain ⟨news, row, h1, h2, h3, h4, h5, h6, h7⟩ := hk.step hash a im hR hC hg hrun
      refine ⟨_, h1, by simp, fun _ => ?_⟩
      by_cases hn : n = 0
      · subst hn
        obtain ⟨z1, z2, z3⟩ := he.zero rfl
        have hl : l = [] := by cases l <;> simp_all
        have hx := z3 x (by simp)
        subst hl
        refine ⟨ps2.nodesChildren.keys, ?_, fun k hk => hk, ?_, ?_, ?_⟩
        · rw [← hx]; exact h4 _ (Dict.mem_keys_of_get? (hk.ginv.items x (by simp)).2.2.2.2.2)
        · intro k hl; rw [← hx] at hl; exact h7 k hl
        · rw [h6, Dict.mem_keys_set]; exact Or.inl hx.symm
        · intro k _
          rw [List.drop_eq_nil_of_le (by simpa using h2)]
          simp
      · obtain ⟨K, b0, b1, b2, b3, b4⟩ := he.kids hn
        have hxr : hid hash x ≠ hash (textOf F0) := fun e => h5 (e ▸ b3)
        refine ⟨K, b0, fun k hk => h4 k (b1 k hk), ?_, ?_, ?_⟩
        · rintro k ⟨r, hr, hk'⟩
          rw [h6, Dict.get?_set_ne _ _ hxr] at hr
          exact b2 k ⟨r, hr, hk'⟩
        · rw [h6, Dict.mem_keys_set]; exact Or.inr b3
        · intro k hkK hm
          rw [List.drop_append, List.map_append, List.mem_append] at hm
          rcases hm with hm | hm
          · apply b4 k hkK
            by_cases h3n : 3 ≤ n
            · have e1 : 3 - n = 0 := by omega
              have e2 : 3 - (n + 1) = 0 := by omega
              rw [e2] at hm
              rw [e1]
              simp only [List.drop_zero, List.map_cons] at hm ⊢
              exact List.mem_cons_of_mem _ hm
            · have e1 : 3 - n = (3 - (n + 1)) + 1 := by omega
              rw [e1, List.drop_succ_cons]
              exact hm
          · obtain ⟨m, hm1, rfl⟩ := List.mem_map.1 hm
            exact h3 m (List.mem_of_mem_drop hm1) (b1 _ hkK)

/-- A run on the empty table, killed after at least three passes with nodes left in the queue: the table has the root and
its children, but not everything below, and no statistics. -/
theorem killed_incomplete {R : Cnf} (hR : Proper R) {s : SetObj H} (h : Ready hash a R s) {S : Str → Prop}
    (hC : Ctx hash a (raws s.clauses) S ([] : Gdb H) []) (hg : a.useGlobalDb = true) {ps0 ps : PS H}
    (h0 : initPS hash a ([] : Gdb H) 1 s = pure ps0) {n : Nat} (hp : Passes hash a im [] n ps0 ps) (hn : 3 ≤ n)
    (hq : ps.queue.isEmpty = false) :
    Stored hash ps.gdb (hid hash s) ∧ ¬ CompleteBelow hash ps.gdb (hid hash s) ∧ ¬ MarkedSolved ps.gdb (hid hash s) ∧
      TableSound hash ps.gdb ∧ ∀ h r, Dict.get? ps.gdb h = some r → S r.body := by
  obtain ⟨i1, i2, i3⟩ := initPS_ginv' hash a [] 1 h hC h0
  have hroot : hid hash s = hash (textOf (raws s.clauses)) := h.tracks.shape.hid_eq hash
  have hst := hid_store hash h.tracks.node a.useRuntimeDb
  have hK : KInv hash a R (raws s.clauses) S ps0 [store a.useRuntimeDb s] := by
    refine ⟨i1, ?_, ?_, by rw [i2]; simp⟩
    · intro k hk hn
      rw [i3] at hk
      have : k = hid hash s := by simpa using hk
      exact absurd (by simp [hst, this]) hn
    · intro k hk
      rw [i3] at hk
      have : k = hid hash s := by simpa using hk
      rw [this, hroot]
  have hE : Early hash (raws s.clauses) 0 ps0 [store a.useRuntimeDb s] :=
    ⟨fun _ => ⟨i2, rfl, fun x hx => by rw [List.mem_singleton.1 hx, hst, hroot]⟩, fun hn => absurd rfl hn⟩
  obtain ⟨l, k1, k2⟩ := hK.early hash a im hR hC hg hE hp
  obtain ⟨K, b0, b1, b2, b3, b4⟩ := k2.kids (by omega)
  have e : 3 - n = 0 := by omega
  rw [e, List.drop_zero] at b4
  rw [hroot]
  refine ⟨⟨b3, fun k hk => k1.rows k (b1 k (b2 k hk)) (b4 k (b2 k hk))⟩, ?_, ?_, k1.ginv.table, k1.ginv.tabS⟩
  · intro hcb
    match l, k1 with
    | [], k1 =>
      unfold Queue.isEmpty at hq
      rw [k1.ginv.rep.size] at hq
      simp at hq
    | x :: l, k1 =>
      have hxk := Dict.mem_keys_of_get? (k1.ginv.items x (by simp)).2.2.2.2.2
      have := hcb _ (k1.reach _ hxk)
      rcases k1.ginv.keys _ this with h1 | ⟨_, h1⟩
      · simp [Dict.keys] at h1
      · exact h1 (by simp)
  · rintro ⟨r, hr, hu⟩
    exact hu (k1.marks _ hr)

/-- The table of a killed run is right. -/
theorem killed_sound {R : Cnf} (hR : Proper R) {s : SetObj H} (h : Ready hash a R s) {S : Str → Prop} {g : Gdb H} {seen : List H}
    (hC : Ctx hash a (raws s.clauses) S g seen) {ps0 ps : PS H}
    (h0 : initPS hash a g 1 s = pure ps0) {n : Nat} (hp : Passes hash a im seen n ps0 ps) :
    ∃ l, GInv hash a R (raws s.clauses) S g ps l := by
  obtain ⟨l0, i1⟩ := initPS_ginv hash a g 1 h hC h0
  clear h0
  induction hp with
  | refl => exact ⟨l0, i1⟩
  | step hp hgo hrun ih =>
    obtain ⟨l, hl⟩ := ih i1
    match l, hl with
    | [], hl =>
      unfold keepGoing Queue.isEmpty at hgo
      rw [hl.rep.size] at hgo
      simp at hgo
    | x :: l, hl => exact hl.step hash a im hR hC hrun

end NDP
