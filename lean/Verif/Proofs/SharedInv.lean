import Verif.Proofs.GKill
/- Several processes on one table: invariants. -/
namespace NDP
open Spec SetObj
variable {H : Type} [DecidableEq H] (hash : Str → H) (a : Args) (im : Mode)

/-- A node as a process handles it. -/
def SItem (R F0 : Cnf) (x : SetObj H) : Prop :=
  GItem R x ∧ Below F0 (raws x.clauses) ∧ (a.useRuntimeDb = true → EvPos x) ∧
    x.id = some (hid hash x) ∧ (x.computedHash = some (hid hash x) ∨ x.computedHash = none)

/-- Invariant of one process; `l` is its queue. -/
structure ProcInv (R F0 : Cnf) (ps : PS H) (l : List (SetObj H)) : Prop where
  rep : Rep ps.queue l
  db : ps.queue.useDb = a.useRuntimeDb
  rows : a.useRuntimeDb = true → ∀ k ∈ ps.queue.table.rows.keys, k ∈ ps.nodesChildren.keys
  items : ∀ x ∈ l, SItem hash a R F0 x ∧ ps.nodesChildren.get? (hid hash x) = some []
  ids : (l.map (hid hash)).Nodup

/-- The nodes queued by a pass: none when the insertion failed. -/
def queued (dup : Bool) (n : List (SetObj H)) : List (SetObj H) := if dup = true then [] else n.map (store a.useRuntimeDb)

theorem ProcInv.pass {R F0 : Cnf} {seen : List H} {gq gw : Gdb H} {ps ps' : PS H} {x : SetObj H} {l : List (SetObj H)}
    (h : ProcInv hash a R F0 ps (x :: l))
    {k1 k2 : Kid H} {n1 n2 : List (SetObj H)} {ps0 ps1 ps2 : PS H} {nv : Nat}
    (hp : Pass hash a seen gq gw R x l ps ps' k1 k2 n1 n2 ps0 ps1 ps2 nv) :
    ProcInv hash a R F0 ps' (l ++ queued a (wants a seen gq (hid hash x) && gw.contains (hid hash x)) (n1 ++ n2)) ∧
      (∀ k ∈ ps.nodesChildren.keys, k ∈ ps'.nodesChildren.keys) ∧
      (∀ k ∈ k1.edges ++ k2.edges, k ∈ ps'.nodesChildren.keys) ∧
      (∀ k ∈ ps'.nodesChildren.keys, k ∈ ps.nodesChildren.keys ∨ k ∈ (n1 ++ n2).map (hid hash)) ∧
      (∀ n ∈ n1 ++ n2, hid hash n ∈ k1.edges ++ k2.edges) ∧
      (∀ n ∈ n1 ++ n2, hid hash (store a.useRuntimeDb n) = hid hash n) := by
  obtain ⟨⟨hxi, hxb, hxp, hxid, hxc⟩, hxn⟩ := h.items x (by simp)
  have e0 := hp.start
  have hn0 : ps0.nodesChildren.get? (hid hash x) = some [] := by rw [e0]; exact hxn
  obtain ⟨g1, g2, g3, g4, g5, g6, _, g8, _⟩ := hp.step1.graph hash (fun hv => (hp.kid1.n hv).2.2.2.1) hn0
  obtain ⟨j1, j2, j3, j4, j5, j6, _, j8, _⟩ := hp.step2.graph hash (fun hv => (hp.kid2.n hv).2.2.2.1) g1
  have hnc : ps'.nodesChildren = ps2.nodesChildren := by rw [hp.final]
  have hnc0 : ps0.nodesChildren = ps.nodesChildren := by rw [e0]
  have hrep' := hp.rep
  generalize hdup : (wants a seen gq (hid hash x) && gw.contains (hid hash x)) = dup at *
  generalize hpid : hid hash x = pid at *
  simp only [List.nil_append] at g1 j1
  rw [hnc0] at g2 g4
  have hpid1 : ∀ n ∈ n1, hid hash n ≠ pid := by
    intro n hn e
    have := g4 n hn
    rw [e, hxn] at this; simp at this
  have hpid2 : ∀ n ∈ n2, hid hash n ≠ pid := by
    intro n hn e
    have := j4 n hn
    rw [e, g1] at this; simp at this
  have hold2 : ∀ n ∈ n2, hid hash n ∉ n1.map (hid hash) ∧ ps.nodesChildren.get? (hid hash n) = none := by
    intro n hn
    have h0 := j4 n hn
    rw [g2 _ (hpid2 n hn)] at h0
    split at h0
    · simp at h0
    · next hh => exact ⟨hh, h0⟩
  have hnewpid : ∀ n ∈ n1 ++ n2, hid hash n ≠ pid := by
    intro n hn
    rcases List.mem_append.1 hn with hn | hn
    · exact hpid1 n hn
    · exact hpid2 n hn
  have hnewnone : ∀ n ∈ n1 ++ n2, ps.nodesChildren.get? (hid hash n) = none := by
    intro n hn
    rcases List.mem_append.1 hn with hn | hn
    · exact g4 n hn
    · exact (hold2 n hn).2
  have hget : ∀ k, k ≠ pid → ps'.nodesChildren.get? k =
      if k ∈ (n1 ++ n2).map (hid hash) then some [] else ps.nodesChildren.get? k := by
    intro k hk
    rw [hnc, j2 k hk, g2 k hk, List.map_append]
    by_cases e1 : k ∈ n1.map (hid hash) <;> by_cases e2 : k ∈ n2.map (hid hash) <;>
      simp only [List.mem_append, e1, e2, if_true, if_false, or_true, true_or, or_false]
  have hgetpid : ps'.nodesChildren.get? pid = some (k1.edges ++ k2.edges) := by rw [hnc, j1]
  have hmono : ∀ k ∈ ps.nodesChildren.keys, k ∈ ps'.nodesChildren.keys := by
    intro k hk
    rw [Dict.mem_keys_iff] at hk ⊢
    by_cases e : k = pid
    · rw [e, hgetpid]; rfl
    · rw [hget k e]; split
      · rfl
      · exact hk
  have hsame : ∀ k ks, k ≠ pid → ps.nodesChildren.get? k = some ks → ps'.nodesChildren.get? k = some ks := by
    intro k ks e hk
    rw [hget k e, if_neg, hk]
    intro hm
    obtain ⟨n, hn, rfl⟩ := List.mem_map.1 hm
    rw [hnewnone n hn] at hk; simp at hk
  have hkids : ∀ k ∈ k1.edges ++ k2.edges, k ∈ ps'.nodesChildren.keys := by
    intro k hk
    rw [Dict.mem_keys_iff, hnc]
    rcases List.mem_append.1 hk with hk | hk
    · have := g3 k hk
      by_cases e : k = pid
      · rw [e, j1]; rfl
      · rw [j2 k e]; split
        · rfl
        · exact this
    · exact j3 k hk
  have hnewmem : ∀ n ∈ n1 ++ n2, hid hash n ∈ k1.edges ++ k2.edges := by
    intro n hn
    rcases List.mem_append.1 hn with hn | hn
    · exact List.mem_append_left _ (g5 n hn).1
    · exact List.mem_append_right _ (j5 n hn).1
  have hids : pid ∉ l.map (hid hash) ∧ (l.map (hid hash)).Nodup := by
    have := h.ids
    rw [List.map_cons, List.nodup_cons, hpid] at this
    exact this
  have hlpid : ∀ y ∈ l, hid hash y ≠ pid := by
    intro y hy e; exact hids.1 (List.mem_map.2 ⟨y, hy, e⟩)
  have hval : ∀ {k : Kid H} {j : H}, j ∈ k.edges → k.value = none := by
    intro k j hj
    unfold Kid.edges at hj
    match hv : k.value with
    | none => rfl
    | some v => rw [hv] at hj; simp at hj
  have hnews : ∀ n ∈ n1 ++ n2, GItem R n ∧ (EvPos x → EvPos n) ∧ n.id = some (hid hash n) ∧
      n.computedHash = some (hid hash n) ∧ Below F0 (raws n.clauses) := by
    have main : ∀ (k : Kid H) (b : Bool) (n : SetObj H), KidFor hash R x b k → hid hash n ∈ k.edges → n = k.item →
        GItem R n ∧ (EvPos x → EvPos n) ∧ n.id = some (hid hash n) ∧
        n.computedHash = some (hid hash n) ∧ Below F0 (raws n.clauses) := by
      rintro k b n hk hm rfl
      obtain ⟨h1, h2, ⟨mode, h3⟩, h4, h5, h6, h7, h8⟩ := hk.n (hval hm)
      exact ⟨h6, h8, by rw [h4, h5], by rw [h4, h7], Below.child hxb h1 h2 h3⟩
    intro n hn
    rcases List.mem_append.1 hn with hn | hn
    · exact main k1 true n hp.kid1 (g5 n hn).1 (g5 n hn).2
    · exact main k2 false n hp.kid2 (j5 n hn).1 (j5 n hn).2
  have hmapid : ((n1 ++ n2).map (store a.useRuntimeDb)).map (hid hash) = (n1 ++ n2).map (hid hash) := by
    rw [List.map_map]
    apply List.map_congr_left
    intro n hn
    exact (hnews n hn).1.1.hid_store hash _
  rw [h.db] at hrep'
  refine ⟨?_, hmono, hkids, ?_, hnewmem, fun n hn => (hnews n hn).1.1.hid_store hash _⟩
  rotate_left
  · intro k hk
    by_cases e : k = pid
    · exact Or.inl (e ▸ Dict.mem_keys_of_get? hxn)
    · rw [Dict.mem_keys_iff, hget k e] at hk
      split at hk
      · next hm => exact Or.inr hm
      · exact Or.inl ((Dict.mem_keys_iff _ _).2 hk)
  have hitems : ∀ y ∈ (n1 ++ n2).map (store a.useRuntimeDb), SItem hash a R F0 y ∧ ps'.nodesChildren.get? (hid hash y) = some [] := by
    intro y hy
    obtain ⟨n, hn, rfl⟩ := List.mem_map.1 hy
    obtain ⟨b1, b2, b3, b4, b5⟩ := hnews n hn
    have hh := b1.1.hid_store hash a.useRuntimeDb
    refine ⟨⟨b1.store _, by rw [raws_store]; exact b5, fun hu => (b2 (hxp hu)).store _, ?_, ?_⟩, ?_⟩
    · rw [id_store, hh, b3]
    · rw [hh]
      unfold store
      split
      · right; rfl
      · left; exact b4
    · rw [hh, hget _ (hnewpid n hn), if_pos (List.mem_map.2 ⟨n, hn, rfl⟩)]
  refine ⟨hrep', by rw [hp.db]; exact h.db, ?_, ?_, ?_⟩
  · intro hu k hk
    rcases hp.rows k hk with hk | hk
    · exact hmono k (h.rows hu k hk)
    · obtain ⟨n, hn, rfl⟩ := List.mem_map.1 hk
      exact hkids _ (hnewmem n hn)
  · intro y hy
    rcases List.mem_append.1 hy with hy | hy
    · obtain ⟨b, b6⟩ := h.items y (by simp [hy])
      exact ⟨b, hsame _ _ (hlpid y hy) b6⟩
    · unfold queued at hy
      split at hy
      · simp at hy
      · exact hitems y hy
  · unfold queued
    split
    · simpa using hids.2
    rw [List.map_append, hmapid, List.nodup_append]
    refine ⟨hids.2, ?_, ?_⟩
    · rw [List.map_append, List.nodup_append]
      refine ⟨nodup_of_length_le_one (by simpa using g6),
        nodup_of_length_le_one (by simpa using j6), ?_⟩
      intro p hp q hq e
      obtain ⟨n, hn, rfl⟩ := List.mem_map.1 hq
      exact (hold2 n hn).1 (e ▸ hp)
    · intro p hp q hq e
      obtain ⟨y, hy, rfl⟩ := List.mem_map.1 hp
      obtain ⟨n, hn, rfl⟩ := List.mem_map.1 hq
      have h1 := hnewnone n hn
      rw [← e, (h.items y (by simp [hy])).2] at h1
      simp at h1

/-- A new process. -/
theorem ProcInv.init {R F0 : Cnf} {g : Gdb H} {u : Nat} {x : SetObj H} (h : SItem hash a R F0 x) {ps : PS H}
    (hrun : initPS hash a g u x = pure ps) :
    ∃ y, ProcInv hash a R F0 ps [y] ∧ hid hash y = hid hash x ∧ ps.nodesChildren = [(hid hash x, [])] ∧
      raws y.clauses = raws x.clauses ∧ (Tracks R x → Tracks R y) := by
  obtain ⟨hi, hb, hp, hid', hc⟩ := h
  have hgh := getHash_shape hash hi.1 hc
  obtain ⟨s', hs'⟩ : ∃ s' : SetObj H, s' = { x with computedHash := some (hid hash x) } := ⟨_, rfl⟩
  have hsh : Shape s' := by
    have := hi.1
    rw [hs']; exact ⟨{ this.sto with }, this.pos⟩
  have hGI : GItem R s' := by
    refine ⟨hsh, ?_⟩
    rcases hi.2 with ht | hb
    · left; rw [hs']; exact { ht with node := { ht.node with } }
    · right; rw [hs']; exact hb
  have hhid : hid hash s' = hid hash x := by rw [hs']; rfl
  have hid'' : s'.id = some (hid hash x) := by rw [hs']; exact hid'
  obtain ⟨q', hq, hrep, hdb, hrows⟩ := (Rep.empty (H := H) a.useRuntimeDb).insert hid'' hsh.sto
    (by intro hd; have := hp hd; rw [hs']; exact this) (by simp)
  unfold initPS at hrun
  rw [hgh] at hrun
  simp only [M.pure_bind] at hrun
  rw [← hs', hq] at hrun
  simp only [M.pure_bind, hid'] at hrun
  have e := (M.pure_inj _ _).1 hrun
  subst e
  have hst := hsh.hid_store hash a.useRuntimeDb
  simp only [List.nil_append] at hrep
  refine ⟨store a.useRuntimeDb s', ⟨hrep, hdb, ?_, ?_, by simp⟩, by rw [hst, hhid], rfl, by rw [raws_store, hs'], ?_⟩
  · intro hd k hk
    rcases hrows k hk with rfl | hk
    · simp
    · simp at hk
  · intro y hy
    rw [List.mem_singleton] at hy
    subst hy
    refine ⟨⟨hGI.store _, ?_, ?_, ?_, ?_⟩, ?_⟩
    · rw [raws_store, hs']; exact hb
    · intro hd
      have : EvPos s' := by rw [hs']; exact hp hd
      exact this.store _
    · rw [id_store, hst, hid'', hhid]
    · rw [hst, hhid]
      unfold store
      split
      · right; rfl
      · left; rw [hs']
    · rw [hst, hhid]; simp
  · intro ht
    apply Tracks.store
    rw [hs']; exact { ht with node := { ht.node with } }

theorem varsOf_ne_zero {G : Cnf} (h : ∀ c ∈ G, (0 : Int) ∉ c) {v : Nat} (hv : v ∈ varsOf G) : v ≠ 0 := by
  obtain ⟨c, hc, l, hl, e⟩ := mem_varsOf.1 hv
  rintro rfl
  have : l = 0 := by omega
  exact h c hc (this ▸ hl)

theorem Renamed.refl (G : Cnf) : Renamed G G := ⟨id, fun _ _ _ _ e => e, by rw [mapCnf_id]; exact SameClauses.refl G⟩

theorem Renamed.trans {G G1 G2 : Cnf} (h : Renamed G G1) (h' : Renamed G1 G2) (hz : ∀ c ∈ G1, (0 : Int) ∉ c) : Renamed G G2 := by
  obtain ⟨ρ, hi, hs⟩ := h
  obtain ⟨ρ', hi', hs'⟩ := h'
  have hm : ∀ v ∈ varsOf G, ρ v ∈ varsOf G1 := by
    intro v hv
    rw [← SameClauses.mem_vars hs, varsOf_mapCnf]; exact ⟨v, hv, rfl⟩
  refine ⟨fun v => ρ' (ρ v), fun u hu v hv e => hi u hu v hv (hi' _ (hm u hu) _ (hm v hv) e), ?_⟩
  have e : mapCnf ρ' (mapCnf ρ G) = mapCnf (fun v => ρ' (ρ v)) G := mapCnf_comp fun v hv => varsOf_ne_zero hz (hm v hv)
  rw [← e]
  exact (hs.mapCnf ρ').trans hs'

theorem Renamed.sat {G G1 : Cnf} (h : Renamed G G1) (hz : ∀ c ∈ G1, (0 : Int) ∉ c) : Satisfiable G ↔ Satisfiable G1 := by
  obtain ⟨ρ, hinj, hs⟩ := h
  rw [← SameClauses.satisfiable hs, satisfiable_mapCnf _ hinj]
  intro v hv
  apply varsOf_ne_zero hz
  rw [← SameClauses.mem_vars hs, varsOf_mapCnf]; exact ⟨v, hv, rfl⟩

theorem Renamed.size {G G1 : Cnf} (h : Renamed G G1) : Spec.size G = Spec.size G1 := by
  obtain ⟨ρ, _, hs⟩ := h
  rw [← hs.size, size_mapCnf]

/-- Two normal forms of one formula are the same up to renaming. -/
theorem NormalForm.renamed {m m1 : Mode} {B G G1 : Cnf} (h : NormalForm m B G) (h1 : NormalForm m1 B G1)
    (hz : ∀ c ∈ B, (0 : Int) ∉ c) : Renamed G G1 := by
  obtain ⟨ρ, hi, hs⟩ := h.rename
  obtain ⟨ρ1, hi1, hs1⟩ := h1.rename
  have hm : ∀ v ∈ varsOf G, ρ v ∈ varsOf B := by
    intro v hv
    rw [← SameClauses.mem_vars hs, varsOf_mapCnf]; exact ⟨v, hv, rfl⟩
  have hm1 : ∀ v ∈ varsOf G1, ρ1 v ∈ varsOf B := by
    intro v hv
    rw [← SameClauses.mem_vars hs1, varsOf_mapCnf]; exact ⟨v, hv, rfl⟩
  have hback : ∀ w ∈ varsOf B, ∃ u ∈ varsOf G1, ρ1 u = w := by
    intro w hw
    rw [← SameClauses.mem_vars hs1, varsOf_mapCnf] at hw
    obtain ⟨u, hu, e⟩ := hw
    exact ⟨u, hu, e⟩
  classical
  let σ : Nat → Nat := fun w => if h : ∃ u ∈ varsOf G1, ρ1 u = w then h.choose else 0
  have hσ : ∀ w ∈ varsOf B, σ w ∈ varsOf G1 ∧ ρ1 (σ w) = w := by
    intro w hw
    have hx := hback w hw
    have e : σ w = hx.choose := dif_pos hx
    rw [e]
    exact hx.choose_spec
  have e1 : mapCnf σ (mapCnf ρ1 G1) = G1 := by
    rw [mapCnf_comp fun v hv => varsOf_ne_zero hz (hm1 v hv)]
    conv_rhs => rw [← mapCnf_id G1]
    apply mapCnf_congr
    intro v hv
    obtain ⟨q1, q2⟩ := hσ _ (hm1 v hv)
    exact hi1 _ q1 _ hv q2
  refine ⟨fun v => σ (ρ v), fun u hu v hv e => hi u hu v hv ?_, ?_⟩
  · have e : σ (ρ u) = σ (ρ v) := e
    rw [← (hσ _ (hm u hu)).2, ← (hσ _ (hm v hv)).2, e]
  · have e : mapCnf σ (mapCnf ρ G) = mapCnf (fun v => σ (ρ v)) G := mapCnf_comp fun v hv => varsOf_ne_zero hz (hm v hv)
    rw [← e]
    have := (hs.trans hs1.symm).mapCnf σ
    rw [e1] at this
    exact this

theorem popMany_table : ∀ (l : List (SetObj H)) (q : Queue H), Rep q l →
    ∃ q', popMany l.length q = pure (l, q') ∧ Rep q' [] ∧ q'.useDb = q.useDb ∧ q'.table = q.table := by
  intro l
  induction l with
  | nil => intro q h; exact ⟨q, rfl, h, rfl, rfl⟩
  | cons x l ih =>
    intro q h
    obtain ⟨q1, h1, h2, h3, h4⟩ := h.pop
    obtain ⟨q2, k1, k2, k3, k4⟩ := ih q1 h2
    refine ⟨q2, ?_, k2, k3.trans h3, k4.trans h4⟩
    rw [List.length_cons]
    unfold popMany
    rw [h1]
    simp only [M.pure_bind]
    rw [k1]
    rfl

/-- The node is in the table or in some queue. -/
def Pend (S : Shared H) (L : List (List (SetObj H))) (k : H) : Prop :=
  k ∈ Dict.keys S.gdb ∨ ∃ l ∈ L, k ∈ l.map (hid hash)

/-- Some formula that is the node up to renaming is in the table or in some queue. -/
def Cov (F0 : Cnf) (S : Shared H) (L : List (List (SetObj H))) (k : H) : Prop :=
  ∃ G G1, hash (textOf G) = k ∧ Below F0 G ∧ Below F0 G1 ∧ Renamed G G1 ∧ Pend hash S L (hash (textOf G1))

theorem Cov.mono {F0 : Cnf} {S S' : Shared H} {L L' : List (List (SetObj H))} (h : ∀ k, Pend hash S L k → Pend hash S' L' k) {k : H}
    (hk : Cov hash F0 S L k) : Cov hash F0 S' L' k := by
  obtain ⟨G, G1, h1, h2, h3, h4, h5⟩ := hk
  exact ⟨G, G1, h1, h2, h3, h4, h _ h5⟩

/-- What is left to do at most: a pass replaces a node by at most two smaller ones. -/
def work (L : List (List (SetObj H))) : Nat := (L.map fun l => (l.map fun x => 3 ^ size (raws x.clauses)).sum).sum

theorem work_append (L L' : List (List (SetObj H))) : work (L ++ L') = work L + work L' := by
  simp [work]

theorem work_set {L : List (List (SetObj H))} {i : Nat} {l l' : List (SetObj H)} (h : L[i]? = some l) :
    work (L.set i l') + work [l] = work L + work [l'] := by
  induction L generalizing i with
  | nil => simp at h
  | cons m L ih =>
    cases i with
    | zero =>
      simp only [List.getElem?_cons_zero, Option.some.injEq] at h
      subst h
      simp [work]
      omega
    | succ i =>
      simp only [List.getElem?_cons_succ] at h
      have := ih h
      simp only [work, List.set_cons_succ, List.map_cons, List.sum_cons] at this ⊢
      omega

theorem GChild.news {pid : H} {k : Kid H} {ps ps' : PS H} {n : List (SetObj H)} (h : GChild pid k ps ps' n) :
    n = [] ∨ (n = [k.item] ∧ k.value = none) := by
  cases h with
  | const => exact Or.inl rfl
  | uniq => next hv _ _ => exact Or.inr ⟨rfl, hv⟩
  | red => exact Or.inl rfl

theorem sortItems_ne_nil {d : Dict Int Bool} (h : d ≠ []) : sortItems d ≠ [] := by
  unfold sortItems
  intro e
  have := congrArg List.length e
  simp at this
  exact h this

theorem kidOf_ev_ne {x ch : SetObj H} {b : Bool} (hch : IsChild x b ch) : (kidOf hash a im ch).ev ≠ [] := by
  show ch.evaluatedVars ≠ []
  rw [hch.ev]
  intro e
  have hm := (Dict.mem_keys_set x.evaluatedVars (nameOf x (pivotOf (raws x.clauses)) : Int)
    (nameOf x (pivotOf (raws x.clauses)) : Int) b).2 (Or.inl rfl)
  rw [e] at hm
  simp [Dict.keys] at hm

theorem GChild.sol_ne {pid : H} {k : Kid H} {ps ps' : PS H} {n : List (SetObj H)} (h : GChild pid k ps ps' n)
    (hk : k.ev ≠ []) (hs : ps.solution ≠ some []) : ps'.solution ≠ some [] := by
  cases h with
  | uniq => exact hs
  | red => exact hs
  | const v hv =>
    show (if v = true ∧ ps.solution = none then some (sortItems k.ev) else ps.solution) ≠ some []
    split
    · intro e
      exact sortItems_ne_nil hk (Option.some.inj e)
    · exact hs

/-- What the verdict and the solution of a process say. -/
structure ProcFlags (R F0 : Cnf) (ps : PS H) : Prop where
  both : ps.isSat = true ↔ ps.solution.isSome
  sol : ∀ d, ps.solution = some d → d = [] ∨ (MakesTrue d R ∧ SolKeys d)
  sat : ps.isSat = true → Satisfiable F0

/-- Invariant of the processes and their table. -/
structure SInv (R F0 : Cnf) (T : Str → Prop) (g0 : Gdb H) (S : Shared H) (L : List (List (SetObj H))) : Prop where
  procs : List.Forall₂ (ProcInv hash a R F0) S.procs L
  table : TableSound hash S.gdb
  tabS : ∀ h r, Dict.get? S.gdb h = some r → T r.body
  old : ∀ k r, Dict.get? g0 k = some r → Dict.get? S.gdb k = some r
  pend : a.thief = false → ∀ ps ∈ S.procs, ∀ k ∈ ps.nodesChildren.keys, Pend hash S L k
  linked : ∀ k r, Dict.get? S.gdb k = some r → Dict.get? g0 k = some r ∨
    ∃ x k1 k2, Computed hash a im R x k1 k2 ∧ Below F0 (raws x.clauses) ∧ hid hash x = k ∧ k1.dig = r.cid1 ∧ k2.dig = r.cid2 ∧
      (a.thief = false → ∀ c ∈ k1.edges ++ k2.edges, Pend hash S L c) ∧
      (k1.value = some true ∨ k2.value = some true → ∃ q ∈ S.procs, q.isSat = true)
  flags : ∀ ps ∈ S.procs, ProcFlags R F0 ps
  tracked : a.gdbNoMem = false → g0 = [] → ∀ l ∈ L, ∀ x ∈ l, Tracks R x
  root : Pend hash S L (hash (textOf F0))
  full : a.gdbNoMem = false → g0 = [] → ∀ ps ∈ S.procs, ps.solution ≠ some []
  cov : ∀ ps ∈ S.procs, ∀ k ∈ ps.nodesChildren.keys, Cov hash F0 S L k
  covRow : ∀ k r, Dict.get? S.gdb k = some r → Dict.get? g0 k = some r ∨
    ∀ x k1 k2, Computed hash a im R x k1 k2 → Below F0 (raws x.clauses) → hid hash x = k →
      ∀ c ∈ k1.edges ++ k2.edges, Cov hash F0 S L c

theorem Gdb.le.sound {g g' : Gdb H} (hle : Gdb.le g g') (h : TableSound hash g') : TableSound hash g := by
  intro k r hr
  obtain ⟨r', hr', e1, e2, e3, e4, e5⟩ := hle k r hr
  obtain ⟨mode, G, x, xs, cs, h1, h2, h3, h4, h5, h6, h7⟩ := h k r' hr'
  exact ⟨mode, G, x, xs, cs, h1, h2, by rw [← e1]; exact h3, by rw [← e1]; exact h4, by rw [← e4]; exact h5,
    by rw [← e2]; exact h6, by rw [← e3, ← e5]; exact h7⟩

theorem isSetInGdb_mono {seen : List H} {g g' : Gdb H} (hle : Gdb.le g g') {k : H} (h : isSetInGdb a seen g k = true) :
    isSetInGdb a seen g' k = true := by
  unfold isSetInGdb at *
  split at h
  · next hm => rw [if_pos hm]; exact hle.contains h
  · next hm => rw [if_neg hm]; exact h

theorem edges_eq_of_dig {k k' : Kid H} (h1 : k.value = k'.value) (h2 : k.dig = k'.dig) : k.edges = k'.edges := by
  unfold Kid.edges; rw [h1, h2]

/-- Without the thief method, the children depend only on the formula. -/
theorem Computed.congr (hth : a.thief = false) {R : Cnf} (hR : Proper R) {x x' : SetObj H} {k1 k2 k1' k2' : Kid H}
    (h : Computed hash a im R x k1 k2) (h' : Computed hash a im R x' k1' k2') (he : raws x.clauses = raws x'.clauses) :
    k1.edges = k1'.edges ∧ k2.edges = k2'.edges := by
  obtain ⟨hx, lft, rgt, _, hl, hr, rfl, rfl⟩ := h
  obtain ⟨hx', lft', rgt', _, hl', hr', rfl, rfl⟩ := h'
  rw [kidsOf_eq hash a im hR hx hl, kidsOf_eq hash a im hR hx hr, kidsOf_eq hash a im hR hx' hl', kidsOf_eq hash a im hR hx' hr']
  exact ⟨kidsOf_congr hash a im hth hR hx hx' he hl hl', kidsOf_congr hash a im hth hR hx hx' he hr hr'⟩

theorem forall2_get {α β : Type} {r : α → β → Prop} {l : List α} {m : List β} (h : List.Forall₂ r l m) :
    ∀ {i : Nat} {x : α}, l[i]? = some x → ∃ y, m[i]? = some y ∧ r x y := by
  induction h with
  | nil => intro i x hx; simp at hx
  | cons hxy _ ih =>
    intro i x hx
    cases i with
    | zero => simp at hx ⊢; rw [← hx]; exact hxy
    | succ i => simp at hx ⊢; exact ih hx

theorem forall2_set {α β : Type} {r : α → β → Prop} {l : List α} {m : List β} (h : List.Forall₂ r l m) {x : α} {y : β}
    (hxy : r x y) : ∀ i, List.Forall₂ r (l.set i x) (m.set i y) := by
  induction h with
  | nil => intro i; simp
  | cons h0 hr ih =>
    intro i
    cases i with
    | zero => simp; exact ⟨hxy, hr⟩
    | succ i => simp; exact ⟨h0, ih i⟩

theorem mem_set_or {α : Type} {L : List α} {i : Nat} {x y z : α} (hi : L[i]? = some x) (hz : z ∈ L) :
    z ∈ L.set i y ∨ z = x := by
  obtain ⟨j, hj, rfl⟩ := List.mem_iff_getElem.1 hz
  by_cases e : i = j
  · subst e
    right
    rw [List.getElem?_eq_getElem hj] at hi
    simpa using hi
  · left
    refine List.mem_iff_getElem.2 ⟨j, by simpa using hj, ?_⟩
    rw [List.getElem_set_ne e]

theorem forall2_mem_right {α β : Type} {r : α → β → Prop} {l : List α} {m : List β} (h : List.Forall₂ r l m) :
    ∀ {y : β}, y ∈ m → ∃ x ∈ l, r x y := by
  induction h with
  | nil => intro y hy; simp at hy
  | cons h _ ih =>
    intro y hy
    rcases List.mem_cons.1 hy with rfl | hy
    · exact ⟨_, by simp, h⟩
    · obtain ⟨x, hx, hr⟩ := ih hy
      exact ⟨x, List.mem_cons_of_mem _ hx, hr⟩

theorem initPS_flags {R F0 : Cnf} {g : Gdb H} {u : Nat} {x : SetObj H} {ps : PS H} (h : initPS hash a g u x = pure ps) :
    ProcFlags R F0 ps := by
  unfold initPS at h
  obtain ⟨⟨_, c⟩, _, h⟩ := M.bind_eq_pure.1 h
  obtain ⟨_, _, h⟩ := M.bind_eq_pure.1 h
  split at h
  · exact absurd h (M.raise_ne_pure _ _)
  · rw [← (M.pure_inj _ _).1 h]
    exact ⟨by simp, by simp, by simp⟩

theorem initPS_sol {g : Gdb H} {u : Nat} {x : SetObj H} {ps : PS H} (h : initPS hash a g u x = pure ps) :
    ps.solution ≠ some [] := by
  have := (initPS_flags (R := []) (F0 := []) hash a h)
  unfold initPS at h
  obtain ⟨⟨_, c⟩, _, h⟩ := M.bind_eq_pure.1 h
  obtain ⟨_, _, h⟩ := M.bind_eq_pure.1 h
  split at h
  · exact absurd h (M.raise_ne_pure _ _)
  · rw [← (M.pure_inj _ _).1 h]
    simp

theorem SInv.run {R F0 : Cnf} {T : Str → Prop} {g0 : Gdb H} {seen : List H} (hR : Proper R) (hg : a.useGlobalDb = true)
    (hC : Ctx hash a F0 T g0 seen) (hseen : ∀ k ∈ seen, k ∈ Dict.keys g0) {S : Shared H} {L : List (List (SetObj H))}
    (h : SInv hash a im R F0 T g0 S L) {i : Nat} {ps ps' : PS H} {gr gq : Gdb H} (hi : S.procs[i]? = some ps)
    (hg0 : Gdb.le g0 gr) (hgr : Gdb.le gr gq) (hgq : Gdb.le gq S.gdb) (hgo : keepGoing a ps = true)
    (hrun : expandAt hash a im seen gr gq S.gdb ps = pure ps') :
    ∃ L', SInv hash a im R F0 T g0 { gdb := ps'.gdb, procs := S.procs.set i ps' } L' ∧ work L' < work L := by
  obtain ⟨l0, hL, hpi⟩ := forall2_get h.procs hi
  have hsz : l0 ≠ [] := by
    rintro rfl
    unfold keepGoing Queue.isEmpty at hgo
    rw [hpi.rep.size] at hgo
    simp at hgo
  obtain ⟨x, l, rfl⟩ := List.exists_cons_of_ne_nil hsz
  obtain ⟨⟨hxi, hxb, hxp, hxid, hxc⟩, hxn⟩ := hpi.items x (by simp)
  have hle : Gdb.le gr S.gdb := by
    intro k r hr
    obtain ⟨r1, e1, a1, a2, a3, a4, a5⟩ := hgr k r hr
    obtain ⟨r2, e2, b1, b2, b3, b4, b5⟩ := hgq k r1 e1
    exact ⟨r2, e2, by rw [b1, a1], by rw [b2, a2], by rw [b3, a3], by rw [b4, a4], by rw [b5, a5]⟩
  have hTx : Texts T gr x := ⟨hC.t, hC.f, fun k r hr => by
      obtain ⟨r', hr', e, _⟩ := hle k r hr
      rw [← e]; exact h.tabS _ _ hr', hC.below _ hxb,
    fun _ _ _ h1 h2 hN => hC.below _ (Below.child hxb h1 h2 hN)⟩
  obtain ⟨k1, k2, n1, n2, ps0, ps1, ps2, nv, hp, hor⟩ := expandAt_pass hash a im seen hR hpi.rep hxi
    (by rw [hpi.db]; exact hxp) hxid hxn (by rw [hpi.db]; exact hpi.rows) hxc hC.clash (hle.sound hash h.table) hTx hgr hrun
  obtain ⟨p1, p2, p3, p4, p5, p6⟩ := hpi.pass hash a hp
  -- a node that is written had its children computed
  have hcomp : wants a seen gq (hid hash x) = true → Computed hash a im R x k1 k2 := by
    intro hw
    rcases hor with hc | ⟨_, hin, _⟩
    · exact hc
    · unfold wants at hw
      rw [isSetInGdb_mono a hgr hin] at hw
      simp at hw
  -- a node that is not written is in the table
  have hthere : wants a seen gq (hid hash x) = false → hid hash x ∈ Dict.keys S.gdb := by
    intro hw
    unfold wants at hw
    rw [hg] at hw
    simp only [Bool.true_and, Bool.not_eq_false'] at hw
    unfold isSetInGdb at hw
    split at hw
    · exact (Dict.mem_keys_iff _ _).2 (hgq.contains hw)
    · have hm := hseen _ (by simpa using hw)
      obtain ⟨r, hr⟩ := Dict.exists_get?_of_mem hm
      exact Dict.mem_keys_of_get? (h.old _ _ hr)
  have hgdb : ps'.gdb = if wants a seen gq (hid hash x) then (S.gdb.insertRow (hid hash x)
      { body := bodyStr x.clauses, cid1 := k1.dig, cid2 := k2.dig, numClauses := x.clauses.length, numVars := nv }).2 else S.gdb := by
    rw [hp.final]
  have hins : ∀ row : Row H, (Dict.contains S.gdb (hid hash x) = true → (S.gdb.insertRow (hid hash x) row).2 = S.gdb) ∧
      (Dict.contains S.gdb (hid hash x) = false → (S.gdb.insertRow (hid hash x) row).2 = Dict.set S.gdb (hid hash x) row) := by
    intro row
    unfold Gdb.insertRow
    constructor
    · intro hc; simp [hc]
    · intro hc; simp [hc]
  -- the table grows
  have hgrow : ∀ k r, Dict.get? S.gdb k = some r → Dict.get? ps'.gdb k = some r := by
    intro k r hr
    rw [hgdb]
    split
    · cases hc : Dict.contains S.gdb (hid hash x) with
      | true => rw [(hins _).1 hc]; exact hr
      | false =>
        rw [(hins _).2 hc, Dict.get?_set_ne]
        · exact hr
        · rintro rfl
          unfold Dict.contains at hc
          rw [hr] at hc; simp at hc
    · exact hr
  have hxin : hid hash x ∈ Dict.keys ps'.gdb := by
    cases hw : wants a seen gq (hid hash x) with
    | false =>
      obtain ⟨r, hr⟩ := Dict.exists_get?_of_mem (hthere hw)
      exact Dict.mem_keys_of_get? (hgrow _ _ hr)
    | true =>
      cases hc : Dict.contains S.gdb (hid hash x) with
      | true =>
        obtain ⟨r, hr⟩ := Dict.exists_get?_of_mem ((Dict.mem_keys_iff _ _).2 hc)
        exact Dict.mem_keys_of_get? (hgrow _ _ hr)
      | false =>
        rw [hgdb, if_pos hw, (hins _).2 hc]
        exact Dict.mem_keys_of_get? (Dict.get?_set_self _ _ _)
  -- rows of the new table
  have hrows : ∀ k r, Dict.get? ps'.gdb k = some r → Dict.get? S.gdb k = some r ∨
      (k = hid hash x ∧ wants a seen gq (hid hash x) = true ∧ Dict.contains S.gdb (hid hash x) = false ∧ r =
      { body := bodyStr x.clauses, cid1 := k1.dig, cid2 := k2.dig, numClauses := x.clauses.length, numVars := nv }) := by
    intro k r hr
    rw [hgdb] at hr
    split at hr
    · next hw =>
      cases hc : Dict.contains S.gdb (hid hash x) with
      | true => rw [(hins _).1 hc] at hr; exact Or.inl hr
      | false =>
        rw [(hins _).2 hc] at hr
        by_cases e : hid hash x = k
        · subst e
          rw [Dict.get?_set_self] at hr
          exact Or.inr ⟨rfl, hw, rfl, by simpa using hr.symm⟩
        · rw [Dict.get?_set_ne _ _ e] at hr
          exact Or.inl hr
    · exact Or.inl hr
  generalize hq : queued a (wants a seen gq (hid hash x) && Dict.contains S.gdb (hid hash x)) (n1 ++ n2) = news at p1
  refine ⟨L.set i (l ++ news), ?_, ?_⟩
  rotate_left
  · have hw := work_set (l' := l ++ news) hL
    have hsub : work [news] ≤ work [n1 ++ n2] := by
      rw [← hq]
      unfold queued
      split
      · simp [work]
      · simp [work, List.map_map, Function.comp_def, raws_store]
    have hkid : ∀ {k : Kid H} {b : Bool} {p p' : PS H} {n : List (SetObj H)}, KidFor hash R x b k →
        GChild (hid hash x) k p p' n → 3 * work [n] ≤ 3 ^ size (raws x.clauses) := by
      intro k b p p' n hk hg
      rcases hg.news with rfl | ⟨rfl, hv⟩
      · simp [work]
      · obtain ⟨_, _, ⟨mode, hN⟩, _⟩ := hk.n hv
        have h1 : size (raws k.item.clauses) < size (raws x.clauses) := by
          rw [hN.size]
          exact size_branch_lt (pivot_mem_of_wf hxi.1.wf)
        simp only [work, List.map_cons, List.map_nil, List.sum_cons, List.sum_nil, Nat.add_zero]
        rw [← Nat.pow_succ']
        exact Nat.pow_le_pow_right (by omega) h1
    have a1 := hkid hp.kid1 hp.step1
    have a2 := hkid hp.kid2 hp.step2
    have a3 : work [n1 ++ n2] = work [n1] + work [n2] := by simp [work]
    have a4 : work [l ++ news] = work [l] + work [news] := by simp [work]
    have a5 : work [x :: l] = 3 ^ size (raws x.clauses) + work [l] := by simp [work]
    have a6 : 0 < 3 ^ size (raws x.clauses) := Nat.pow_pos (by omega)
    omega
  have hmono : ∀ k, Pend hash S L k → Pend hash { gdb := ps'.gdb, procs := S.procs.set i ps' } (L.set i (l ++ news)) k := by
    rintro k (hk | ⟨l', hl', hk⟩)
    · obtain ⟨r, hr⟩ := Dict.exists_get?_of_mem hk
      exact Or.inl (Dict.mem_keys_of_get? (hgrow _ _ hr))
    · rcases mem_set_or (y := l ++ news) hL hl' with hm | rfl
      · exact Or.inr ⟨l', hm, hk⟩
      · rw [List.map_cons, List.mem_cons] at hk
        rcases hk with rfl | hk
        · exact Or.inl hxin
        · refine Or.inr ⟨l ++ news, ?_, by rw [List.map_append]; exact List.mem_append_left _ hk⟩
          have : i < L.length := (List.getElem?_eq_some_iff.1 hL).1
          exact List.mem_iff_getElem.2 ⟨i, by simpa using this, by simp⟩
  have hnewsmem : l ++ news ∈ L.set i (l ++ news) := by
    have : i < L.length := (List.getElem?_eq_some_iff.1 hL).1
    exact List.mem_iff_getElem.2 ⟨i, by simpa using this, by simp⟩
  -- the edges are pending
  have hedges : a.thief = false → ∀ k ∈ ps'.nodesChildren.keys,
      Pend hash { gdb := ps'.gdb, procs := S.procs.set i ps' } (L.set i (l ++ news)) k := by
    intro hth k hk
    rcases p4 k hk with hk | hk
    · exact hmono k (h.pend hth ps (List.mem_of_getElem? hi) k hk)
    · obtain ⟨n, hn, rfl⟩ := List.mem_map.1 hk
      cases hd : (wants a seen gq (hid hash x) && Dict.contains S.gdb (hid hash x)) with
      | false =>
        right
        refine ⟨_, hnewsmem, ?_⟩
        rw [← hq, hd, List.map_append]
        apply List.mem_append_right
        unfold queued
        simp only [Bool.false_eq_true, if_false, List.map_map]
        exact List.mem_map.2 ⟨n, hn, p6 n hn⟩
      | true =>
        simp only [Bool.and_eq_true] at hd
        obtain ⟨r, hr⟩ := Dict.exists_get?_of_mem ((Dict.mem_keys_iff _ _).2 hd.2)
        have hself : ∀ G : Cnf, Wf G → hash (textOf G) = hid hash x → T (textOf G) → raws x.clauses = G := by
          intro G hG e hT
          apply textOf_inj hxi.1.wf.1 hG.1 (fun c hc => (hxi.1.wf.2 c hc).1) (fun c hc => (hG.2 c hc).1)
          exact hC.clash _ _ (hC.below _ hxb) hT (by rw [← hxi.1.hid_eq hash, e])
        rcases h.linked _ _ hr with hr0 | ⟨x', k1', k2', hc', hb', e1, e2, e3, e4, _⟩
        · exfalso
          have hw := hd.1
          unfold wants at hw
          simp only [Bool.and_eq_true, Bool.not_eq_true'] at hw
          have hin := hw.2
          unfold isSetInGdb at hin
          split at hin
          · obtain ⟨r1, hr1, _⟩ := hg0 _ _ hr0
            have : Dict.contains gq (hid hash x) = true := hgr.contains ((Dict.mem_keys_iff _ _).1 (Dict.mem_keys_of_get? hr1))
            unfold Gdb.hashExists at hin
            rw [this] at hin; simp at hin
          · next hm =>
            obtain ⟨mode, G, y, ys, cs, hG, hwf, hb, hkey, hlen, _⟩ := hC.sound _ _ hr0
            have := hself G ⟨by rw [hG]; simp, hwf⟩ (by rw [hkey, hb]) (by rw [← hb]; exact hC.body _ _ hr0)
            have hs := hC.seen (by simpa using hm) _ _ hr0 (by rw [hlen, ← this]; exact hxb.length)
            simp [hs] at hin
        · have hx' := hc'.1.shape
          have := hself (raws x'.clauses) hx'.wf (by rw [← hx'.hid_eq hash, e1]) (hC.below _ hb')
          obtain ⟨f1, f2⟩ := (hcomp hd.1).congr hash a im hth hR hc' this
          apply hmono
          apply e4 hth
          rw [← f1, ← f2]
          exact p5 n hn
  have hselfT : ∀ G : Cnf, Wf G → hash (textOf G) = hid hash x → T (textOf G) → raws x.clauses = G := by
    intro G hG e hT
    apply textOf_inj hxi.1.wf.1 hG.1 (fun c hc => (hxi.1.wf.2 c hc).1) (fun c hc => (hG.2 c hc).1)
    exact hC.clash _ _ (hC.below _ hxb) hT (by rw [← hxi.1.hid_eq hash, e])
  -- the edges are pending, up to renaming
  have hcov : ∀ k ∈ ps'.nodesChildren.keys,
      Cov hash F0 { gdb := ps'.gdb, procs := S.procs.set i ps' } (L.set i (l ++ news)) k := by
    intro k hk
    rcases p4 k hk with hk | hk
    · exact (h.cov ps (List.mem_of_getElem? hi) k hk).mono hash hmono
    · obtain ⟨n, hn, rfl⟩ := List.mem_map.1 hk
      cases hd : (wants a seen gq (hid hash x) && Dict.contains S.gdb (hid hash x)) with
      | false =>
        have hmem : store a.useRuntimeDb n ∈ l ++ news := by
          rw [← hq, hd]
          apply List.mem_append_right
          unfold queued
          simp only [Bool.false_eq_true, if_false]
          exact List.mem_map_of_mem hn
        obtain ⟨hy, hyb, _⟩ := (p1.items _ hmem).1
        have e : hash (textOf (raws (store a.useRuntimeDb n).clauses)) = hid hash n := by
          rw [← hy.1.hid_eq hash, p6 n hn]
        refine ⟨_, _, e, hyb, hyb, Renamed.refl _, Or.inr ⟨_, hnewsmem, ?_⟩⟩
        rw [e, ← p6 n hn]
        exact List.mem_map_of_mem hmem
      | true =>
        simp only [Bool.and_eq_true] at hd
        obtain ⟨r, hr⟩ := Dict.exists_get?_of_mem ((Dict.mem_keys_iff _ _).2 hd.2)
        rcases h.covRow _ _ hr with hr0 | hcr
        · exfalso
          have hw := hd.1
          unfold wants at hw
          simp only [Bool.and_eq_true, Bool.not_eq_true'] at hw
          have hin := hw.2
          unfold isSetInGdb at hin
          split at hin
          · obtain ⟨r1, hr1, _⟩ := hg0 _ _ hr0
            have : Dict.contains gq (hid hash x) = true := hgr.contains ((Dict.mem_keys_iff _ _).1 (Dict.mem_keys_of_get? hr1))
            unfold Gdb.hashExists at hin
            rw [this] at hin; simp at hin
          · next hm =>
            obtain ⟨mode, G, y, ys, cs, hG, hwf, hb, hkey, hlen, _⟩ := hC.sound _ _ hr0
            have := hselfT G ⟨by rw [hG]; simp, hwf⟩ (by rw [hkey, hb]) (by rw [← hb]; exact hC.body _ _ hr0)
            have hs := hC.seen (by simpa using hm) _ _ hr0 (by rw [hlen, ← this]; exact hxb.length)
            simp [hs] at hin
        · exact (hcr x k1 k2 (hcomp hd.1) hxb rfl _ (p5 n hn)).mono hash hmono
  have hfl := h.flags ps (List.mem_of_getElem? hi)
  have hstart : ps0.isSat = ps.isSat ∧ ps0.solution = ps.solution := by rw [hp.start]; exact ⟨rfl, rfl⟩
  obtain ⟨v1, v2, v3, v4, v5⟩ := hp.step1.flags hash hp.kid1 (by rw [hstart.1, hstart.2]; exact hfl.both)
    (by rw [hstart.2]; exact hfl.sol)
  obtain ⟨u1, u2, u3, u4, u5⟩ := hp.step2.flags hash hp.kid2 v1 v2
  have hend : ps'.isSat = ps2.isSat ∧ ps'.solution = ps2.solution := by rw [hp.final]; exact ⟨rfl, rfl⟩
  have hiS : i < S.procs.length := (List.getElem?_eq_some_iff.1 hi).1
  have hself' : ps' ∈ S.procs.set i ps' := List.mem_iff_getElem.2 ⟨i, by simpa using hiS, by simp⟩
  have hkeep : (∃ q ∈ S.procs, q.isSat = true) → ∃ q ∈ S.procs.set i ps', q.isSat = true := by
    rintro ⟨q, hq, hs⟩
    rcases mem_set_or (y := ps') hi hq with hq | rfl
    · exact ⟨q, hq, hs⟩
    · exact ⟨ps', hself', by rw [hend.1]; exact u3 (v3 (by rw [hstart.1]; exact hs))⟩
  have hflag' : ProcFlags R F0 ps' := by
    refine ⟨by rw [hend.1, hend.2]; exact u1, by rw [hend.2]; exact u2, ?_⟩
    intro hs
    rw [hend.1] at hs
    have htrue : ∀ (k : Kid H) (b : Bool), KidFor hash R x b k → k.value = some true → Satisfiable F0 := by
      intro k b hk hv
      apply hxb.sat hC.wf
      apply sat_of_sub (b := b)
      have := (hk.t hv).1
      rw [sub_eq] at this
      rw [this]
      exact ⟨fun _ => true, fun c hc => by simp at hc⟩
    rcases u5 hs with hs | hs
    · rcases v5 hs with hs | hs
      · rw [hstart.1] at hs; exact hfl.sat hs
      · exact htrue _ _ hp.kid1 hs
    · exact htrue _ _ hp.kid2 hs
  have hcomp0 : a.gdbNoMem = false → g0 = [] → Computed hash a im R x k1 k2 := by
    intro hnm hg0'
    rcases hor with hc | ⟨_, hin, _⟩
    · exact hc
    · unfold isSetInGdb at hin
      rw [hnm] at hin
      have := hseen _ (by simpa using hin)
      rw [hg0'] at this
      simp [Dict.keys] at this
  refine ⟨forall2_set h.procs p1 i, ?_, ?_, fun k r hr => hgrow k r (h.old k r hr), ?_, ?_, ?_, ?_, ?_, ?_, ?_, ?_⟩
  rotate_right
  · intro k r hr
    rcases hrows k r hr with hr | ⟨rfl, hw, _, rfl⟩
    · exact (h.covRow k r hr).imp id fun hcr x' k1' k2' hc' hb' he c hc => (hcr x' k1' k2' hc' hb' he c hc).mono hash hmono
    · right
      intro x' k1' k2' hc' hb' he c hc
      have hx' := hc'.1.shape
      have hraw := hselfT (raws x'.clauses) hx'.wf (by rw [← hx'.hid_eq hash, he]) (hC.below _ hb')
      obtain ⟨htr, lft, rgt, _, hl, hrr, e1, e2⟩ := hcomp hw
      obtain ⟨htr', lft', rgt', _, hl', hrr', e1', e2'⟩ := hc'
      have main : ∀ (b : Bool) (ch ch' : SetObj H), IsChild x b ch → IsChild x' b ch' →
          (∀ c ∈ (kidOf hash a im ch).edges, c ∈ ps'.nodesChildren.keys) → c ∈ (kidOf hash a im ch').edges →
          Cov hash F0 { gdb := ps'.gdb, procs := S.procs.set i ps' } (L.set i (l ++ news)) c := by
        intro b ch ch' hch hch' hks hcm
        have hkf := (kidFor_of_child hash a im hR htr hch).1
        have hkf' := (kidFor_of_child hash a im hR htr' hch').1
        have hv' : (kidOf hash a im ch').value = none := by
          unfold Kid.edges at hcm
          match hv : (kidOf hash a im ch').value with
          | none => rfl
          | some v => rw [hv] at hcm; simp at hcm
        obtain ⟨q1, q2, ⟨m', q3⟩, q4, _, q6, _⟩ := hkf'.n hv'
        rw [sub_eq, ← hraw, ← sub_eq] at q1 q2 q3
        have hv : (kidOf hash a im ch).value = none := by
          match hv : (kidOf hash a im ch).value with
          | none => rfl
          | some true => exact absurd (hkf.t hv).1 q1
          | some false => exact absurd (hkf.f hv).1 q2
        obtain ⟨r1, r2, ⟨m, r3⟩, r4, _, r6, _⟩ := hkf.n hv
        have hbk : Below F0 (raws (kidOf hash a im ch).item.clauses) := Below.child hxb r1 r2 r3
        have hbk' : Below F0 (raws (kidOf hash a im ch').item.clauses) := Below.child hxb q1 q2 q3
        have hdig : (kidOf hash a im ch).dig ∈ (kidOf hash a im ch).edges := by unfold Kid.edges; rw [hv]; simp
        have hc0 : c = (kidOf hash a im ch').dig := by unfold Kid.edges at hcm; rw [hv'] at hcm; simpa using hcm
        obtain ⟨G, G1, g1, g2, g3, g4, g5⟩ := hcov _ (hks _ hdig)
        have hwk := hbk.wf hC.wf
        have hwG := g2.wf hC.wf
        have hG : raws (kidOf hash a im ch).item.clauses = G := by
          apply textOf_inj hwk.1 hwG.1 (fun c hc => (hwk.2 c hc).1) (fun c hc => (hwG.2 c hc).1)
          exact hC.clash _ _ (hC.below _ hbk) (hC.below _ g2) (by rw [g1, ← r4, r6.1.hid_eq hash])
        refine ⟨_, G1, ?_, hbk', g3, ?_, g5⟩
        · rw [hc0, ← q4, q6.1.hid_eq hash]
        · have hzs : ∀ d ∈ sub x b, (0 : Int) ∉ d := by
            rw [sub_eq]
            exact sub_zero fun d hd => (hxi.1.wf.2 d hd).2.1
          exact (q3.renamed r3 hzs).trans (hG ▸ g4) fun d hd => (hwk.2 d hd).2.1
      rcases List.mem_append.1 hc with hc | hc
      · exact main true lft lft' hl hl' (fun d hd => p3 d (by rw [e1]; exact List.mem_append_left _ hd)) (e1' ▸ hc)
      · exact main false rgt rgt' hrr hrr' (fun d hd => p3 d (by rw [e2]; exact List.mem_append_right _ hd)) (e2' ▸ hc)
  rotate_right
  · intro q hq k hk
    rcases List.mem_or_eq_of_mem_set hq with hq | rfl
    · exact (h.cov q hq k hk).mono hash hmono
    · exact hcov k hk
  rotate_right
  · intro hnm hg0' q hq
    rcases List.mem_or_eq_of_mem_set hq with hq | rfl
    · exact h.full hnm hg0' q hq
    · obtain ⟨_, lft, rgt, _, hl, hrr, rfl, rfl⟩ := hcomp0 hnm hg0'
      rw [hend.2]
      apply hp.step2.sol_ne (kidOf_ev_ne hash a im hrr)
      apply hp.step1.sol_ne (kidOf_ev_ne hash a im hl)
      rw [hstart.2]
      exact h.full hnm hg0' ps (List.mem_of_getElem? hi)
  · intro k r hr
    rcases hrows k r hr with hr | ⟨rfl, hw, _, rfl⟩
    · exact h.table k r hr
    · exact ⟨im, (hcomp hw).row hash a im hR hp.nv⟩
  · intro k r hr
    rcases hrows k r hr with hr | ⟨rfl, hw, _, rfl⟩
    · exact h.tabS k r hr
    · show T (bodyStr x.clauses)
      rw [bodyStr_text hxi.1.sto.cne]
      exact hC.below _ hxb
  · intro hth q hq k hk
    rcases List.mem_or_eq_of_mem_set hq with hq | rfl
    · exact hmono k (h.pend hth q hq k hk)
    · exact hedges hth k hk
  · intro k r hr
    rcases hrows k r hr with hr | ⟨rfl, hw, _, rfl⟩
    · rcases h.linked k r hr with h0 | ⟨x', k1', k2', hc', hb', e1, e2, e3, e4, e5⟩
      · exact Or.inl h0
      · exact Or.inr ⟨x', k1', k2', hc', hb', e1, e2, e3, fun hth c hc => hmono c (e4 hth c hc), fun ht => hkeep (e5 ht)⟩
    · refine Or.inr ⟨x, k1, k2, hcomp hw, hxb, rfl, rfl, rfl, fun hth c hc => hedges hth c (p3 c hc), ?_⟩
      rintro (ht | ht)
      · exact ⟨ps', hself', by rw [hend.1]; exact u3 (v4 ht)⟩
      · exact ⟨ps', hself', by rw [hend.1]; exact u4 ht⟩
  · intro q hq
    rcases List.mem_or_eq_of_mem_set hq with hq | rfl
    · exact h.flags q hq
    · exact hflag'
  · intro hnm hg0' m hm y hy
    have hcomp' := hcomp0 hnm hg0'
    have hitem : ∀ (k : Kid H) (b : Bool) (ch : SetObj H), IsChild x b ch → k = kidOf hash a im ch → k.value = none → Tracks R k.item := by
      rintro k b ch hch rfl hv
      have hv : ch.value = none := hv
      obtain ⟨c, hlo, _⟩ := toLo_tracks hR im a.sortBySize a.thief (hch.pre hcomp'.1 hv)
      rw [kidOf_lo hash a im hv hlo]
      exact toLo_childItem_tracks hash a im hR hcomp'.1 hch hv hlo
    have hLx := h.tracked hnm hg0' _ (List.mem_of_getElem? hL)
    rcases List.mem_or_eq_of_mem_set hm with hm | rfl
    · exact h.tracked hnm hg0' m hm y hy
    · rcases List.mem_append.1 hy with hy | hy
      · exact hLx y (by simp [hy])
      · rw [← hq] at hy
        unfold queued at hy
        split at hy
        · simp at hy
        · obtain ⟨n, hn, rfl⟩ := List.mem_map.1 hy
          obtain ⟨_, lft, rgt, _, hl, hr, e1, e2⟩ := hcomp'
          apply Tracks.store
          rcases List.mem_append.1 hn with hn | hn
          · rcases hp.step1.news with e | ⟨e, hv⟩
            · rw [e] at hn; simp at hn
            · rw [e, List.mem_singleton] at hn
              rw [hn]; exact hitem k1 _ lft hl e1 hv
          · rcases hp.step2.news with e | ⟨e, hv⟩
            · rw [e] at hn; simp at hn
            · rw [e, List.mem_singleton] at hn
              rw [hn]; exact hitem k2 _ rgt hr e2 hv
  · exact hmono _ h.root

theorem init_all {R F0 : Cnf} {g : Gdb H} : ∀ {nodes : List (SetObj H)} {news : List (PS H)},
    (∀ x ∈ nodes, SItem hash a R F0 x) → List.Forall₂ (fun x p => initPS hash a g 0 x = pure p) nodes news →
    ∃ L, List.Forall₂ (ProcInv hash a R F0) news L ∧ (∀ x ∈ nodes, ∃ l ∈ L, hid hash x ∈ l.map (hid hash)) ∧
      (∀ p ∈ news, ∀ k ∈ p.nodesChildren.keys, ∃ l ∈ L, k ∈ l.map (hid hash)) ∧ work L = work [nodes] ∧
      ((∀ x ∈ nodes, Tracks R x) → ∀ l ∈ L, ∀ x ∈ l, Tracks R x) := by
  intro nodes news hall h
  induction h with
  | nil => exact ⟨[], List.Forall₂.nil, by simp, by simp, by simp [work], by simp⟩
  | @cons x p nodes news hxp hrest ih =>
    obtain ⟨L, h1, h2, h3, h4, h5⟩ := ih fun y hy => hall y (by simp [hy])
    obtain ⟨y, hy, e, hnc, er, ht⟩ := ProcInv.init hash a (hall x (by simp)) hxp
    refine ⟨[y] :: L, List.Forall₂.cons hy h1, ?_, ?_, ?_, ?_⟩
    rotate_left 2
    · simp only [work, List.map_cons, List.map_nil, List.sum_cons, List.sum_nil, Nat.add_zero, er] at h4 ⊢
      omega
    · intro hall' l hl z hz
      rcases List.mem_cons.1 hl with rfl | hl
      · rw [List.mem_singleton] at hz
        subst hz
        exact ht (hall' x (by simp))
      · exact h5 (fun w hw => hall' w (by simp [hw])) l hl z hz
    · intro z hz
      rcases List.mem_cons.1 hz with rfl | hz
      · exact ⟨[y], by simp, by simp [e]⟩
      · obtain ⟨l, hl, hm⟩ := h2 z hz
        exact ⟨l, by simp [hl], hm⟩
    · intro q hq k hk
      rcases List.mem_cons.1 hq with rfl | hq
      · rw [hnc] at hk
        simp only [Dict.keys, List.map_cons, List.map_nil, List.mem_singleton] at hk
        exact ⟨[y], by simp, by simp [e, hk]⟩
      · obtain ⟨l, hl, hm⟩ := h3 q hq k hk
        exact ⟨l, by simp [hl], hm⟩

theorem SInv.spawn {R F0 : Cnf} {T : Str → Prop} {g0 : Gdb H} {S : Shared H} {L : List (List (SetObj H))}
    (h : SInv hash a im R F0 T g0 S L) {i : Nat} {ps : PS H} {nodes : List (SetObj H)} {q : Queue H} {news : List (PS H)}
    (hi : S.procs[i]? = some ps) (hpop : popMany ps.queue.size ps.queue = pure (nodes, q))
    (hnew : List.Forall₂ (fun x p => initPS hash a S.gdb 0 x = pure p) nodes news) :
    ∃ L', SInv hash a im R F0 T g0 { gdb := S.gdb, procs := S.procs.set i { ps with queue := q } ++ news } L' ∧
      work L' = work L := by
  obtain ⟨l, hL, hpi⟩ := forall2_get h.procs hi
  obtain ⟨q', hq, hrep, hdb, htab⟩ := popMany_table l ps.queue hpi.rep
  rw [hpi.rep.size, hq] at hpop
  have e := (M.pure_inj _ _).1 hpop
  simp only [Prod.mk.injEq] at e
  obtain ⟨rfl, rfl⟩ := e
  obtain ⟨L2, h1, h2, h3, h4, h5⟩ := init_all hash a (fun x hx => (hpi.items x hx).1) hnew
  have hp' : ProcInv hash a R F0 { ps with queue := q' } [] :=
    ⟨hrep, by rw [← hpi.db]; exact hdb, by intro hu; show ∀ k ∈ q'.table.rows.keys, _; rw [htab]; exact hpi.rows hu, by simp, by simp⟩
  have hmono : ∀ k, Pend hash S L k →
      Pend hash { gdb := S.gdb, procs := S.procs.set i { ps with queue := q' } ++ news } (L.set i [] ++ L2) k := by
    rintro k (hk | ⟨l', hl', hk⟩)
    · exact Or.inl hk
    · right
      rcases mem_set_or (y := []) hL hl' with hm | rfl
      · exact ⟨l', List.mem_append_left _ hm, hk⟩
      · obtain ⟨x, hx, rfl⟩ := List.mem_map.1 hk
        obtain ⟨l2, hl2, hm⟩ := h2 x hx
        exact ⟨l2, List.mem_append_right _ hl2, hm⟩
  refine ⟨L.set i [] ++ L2, ⟨List.rel_append (forall2_set h.procs hp' i) h1, h.table, h.tabS, h.old, ?_, ?_, ?_, ?_, hmono _ h.root, ?_, ?_,
    fun k r hr => (h.covRow k r hr).imp id fun hcr x' k1' k2' hc' hb' he c hc => (hcr x' k1' k2' hc' hb' he c hc).mono hash hmono⟩, ?_⟩
  rotate_right
  · have hw := work_set (l' := []) hL
    rw [work_append, h4]
    have : work [([] : List (SetObj H))] = 0 := by simp [work]
    omega
  · intro hth p hp k hk
    rcases List.mem_append.1 hp with hp | hp
    · rcases List.mem_or_eq_of_mem_set hp with hp | rfl
      · exact hmono k (h.pend hth p hp k hk)
      · exact hmono k (h.pend hth ps (List.mem_of_getElem? hi) k hk)
    · obtain ⟨l', hl', hm⟩ := h3 p hp k hk
      exact Or.inr ⟨l', List.mem_append_right _ hl', hm⟩
  · intro k r hr
    rcases h.linked k r hr with h0 | ⟨x', k1', k2', hc', hb', e1, e2, e3, e4, e5⟩
    · exact Or.inl h0
    · refine Or.inr ⟨x', k1', k2', hc', hb', e1, e2, e3, fun hth c hc => hmono c (e4 hth c hc), fun ht => ?_⟩
      obtain ⟨p, hp, hs⟩ := e5 ht
      rcases mem_set_or (y := { ps with queue := q' }) hi hp with hp | rfl
      · exact ⟨p, List.mem_append_left _ hp, hs⟩
      · refine ⟨{ p with queue := q' }, List.mem_append_left _ ?_, hs⟩
        have hiS : i < S.procs.length := (List.getElem?_eq_some_iff.1 hi).1
        exact List.mem_iff_getElem.2 ⟨i, by simpa using hiS, by simp⟩
  · intro p hp
    rcases List.mem_append.1 hp with hp | hp
    · rcases List.mem_or_eq_of_mem_set hp with hp | rfl
      · exact h.flags p hp
      · have := h.flags ps (List.mem_of_getElem? hi)
        exact ⟨this.both, this.sol, this.sat⟩
    · obtain ⟨x, _, hx⟩ := forall2_mem_right hnew hp
      exact initPS_flags hash a hx
  · intro hnm hg0 m hm y hy
    rcases List.mem_append.1 hm with hm | hm
    · rcases List.mem_or_eq_of_mem_set hm with hm | rfl
      · exact h.tracked hnm hg0 m hm y hy
      · simp at hy
    · exact h5 (h.tracked hnm hg0 _ (List.mem_of_getElem? hL)) m hm y hy
  · intro hnm hg0 p hp
    rcases List.mem_append.1 hp with hp | hp
    · rcases List.mem_or_eq_of_mem_set hp with hp | rfl
      · exact h.full hnm hg0 p hp
      · exact h.full hnm hg0 ps (List.mem_of_getElem? hi)
    · obtain ⟨x, _, hx⟩ := forall2_mem_right hnew hp
      exact initPS_sol hash a hx
  · intro p hp k hk
    rcases List.mem_append.1 hp with hp | hp
    · rcases List.mem_or_eq_of_mem_set hp with hp | rfl
      · exact (h.cov p hp k hk).mono hash hmono
      · exact (h.cov ps (List.mem_of_getElem? hi) k hk).mono hash hmono
    · obtain ⟨l', hl', hm⟩ := h3 p hp k hk
      obtain ⟨y, hy, rfl⟩ := List.mem_map.1 hm
      obtain ⟨p0, _, hp0⟩ := forall2_mem_right h1 hl'
      obtain ⟨hyi, hyb, _⟩ := (hp0.items y hy).1
      have e := hyi.1.hid_eq hash
      exact ⟨_, _, e.symm, hyb, hyb, Renamed.refl _, Or.inr ⟨l', List.mem_append_right _ hl', by rw [← e]; exact hm⟩⟩

theorem Shared.Reached.count {im : Mode} {seen : List H} {g0 : Gdb H} {s : SetObj H} {S : Shared H}
    (h : Shared.Reached hash a im seen g0 s S) : ∃ n, Shared.ReachedIn hash a im seen g0 s n S := by
  induction h with
  | start ps h => exact ⟨0, .start ps h⟩
  | step h hs ih =>
    obtain ⟨n, hn⟩ := ih
    cases hs with
    | run i ps ps' gr gq hi hg0 hgr hgq hgo h => exact ⟨n + 1, .run hn i ps ps' gr gq hi hg0 hgr hgq hgo h⟩
    | spawn i ps nodes q news hi hpop hnew => exact ⟨n, .spawn hn i ps nodes q news hi hpop hnew⟩

theorem reachedIn_inv {R : Cnf} {s : SetObj H} {T : Str → Prop} {g0 : Gdb H} {seen : List H} (hR : Proper R)
    (hg : a.useGlobalDb = true) (hs : SItem hash a R (raws s.clauses) s) (ht : Tracks R s)
    (hC : Ctx hash a (raws s.clauses) T g0 seen) (hseen : ∀ k ∈ seen, k ∈ Dict.keys g0) {n : Nat} {S : Shared H}
    (h : Shared.ReachedIn hash a im seen g0 s n S) :
    ∃ L, SInv hash a im R (raws s.clauses) T g0 S L ∧ work L + n ≤ 3 ^ size (raws s.clauses) := by
  induction h with
  | start ps h =>
    obtain ⟨y, h1, h2, h3, h4, h5⟩ := ProcInv.init hash a hs h
    refine ⟨[[y]], ⟨List.Forall₂.cons h1 List.Forall₂.nil, hC.sound, hC.body, fun _ _ h => h, ?_, fun _ _ h => Or.inl h, ?_, ?_, ?_, ?_, ?_,
      fun _ _ h => Or.inl h⟩, by simp [work, h4]⟩
    · intro _ p hp k hk
      rw [List.mem_singleton] at hp
      subst hp
      rw [h3] at hk
      simp only [Dict.keys, List.map_cons, List.map_nil, List.mem_singleton] at hk
      exact Or.inr ⟨[y], by simp, by simp [h2, hk]⟩
    · intro p hp
      rw [List.mem_singleton] at hp
      subst hp
      exact initPS_flags hash a h
    · intro _ _ l hl x hx
      rw [List.mem_singleton] at hl
      subst hl
      rw [List.mem_singleton] at hx
      subst hx
      exact h5 ht
    · exact Or.inr ⟨[y], by simp, by simp [h2, hs.1.1.hid_eq hash]⟩
    · intro _ _ p hp
      rw [List.mem_singleton] at hp
      subst hp
      exact initPS_sol hash a h
    · intro p hp k hk
      rw [List.mem_singleton] at hp
      subst hp
      rw [h3] at hk
      simp only [Dict.keys, List.map_cons, List.map_nil, List.mem_singleton] at hk
      have e := hs.1.1.hid_eq hash
      exact ⟨_, _, by rw [hk, e], hs.2.1, hs.2.1, Renamed.refl _, Or.inr ⟨[y], by simp, by simp [h2, e]⟩⟩
  | run h i ps ps' gr gq hi hg0 hgr hgq hgo he ih =>
    obtain ⟨L, hL, hw⟩ := ih
    obtain ⟨L', hL', hw'⟩ := hL.run hash a im hR hg hC hseen hi hg0 hgr hgq hgo he
    exact ⟨L', hL', by omega⟩
  | spawn h i ps nodes q news hi hpop hnew ih =>
    obtain ⟨L, hL, hw⟩ := ih
    obtain ⟨L', hL', hw'⟩ := hL.spawn hash a im hi hpop hnew
    exact ⟨L', hL', by omega⟩

theorem reached_inv {R : Cnf} {s : SetObj H} {T : Str → Prop} {g0 : Gdb H} {seen : List H} (hR : Proper R)
    (hg : a.useGlobalDb = true) (hs : SItem hash a R (raws s.clauses) s) (ht : Tracks R s)
    (hC : Ctx hash a (raws s.clauses) T g0 seen) (hseen : ∀ k ∈ seen, k ∈ Dict.keys g0) {S : Shared H}
    (h : Shared.Reached hash a im seen g0 s S) : ∃ L, SInv hash a im R (raws s.clauses) T g0 S L := by
  obtain ⟨n, hn⟩ := h.count hash a
  obtain ⟨L, hL, _⟩ := reachedIn_inv hash a im hR hg hs ht hC hseen hn
  exact ⟨L, hL⟩

end NDP
