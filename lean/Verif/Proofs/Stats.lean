import Verif.Model.Solver
import Verif.Lib.M
import Verif.Lib.Dict
import Mathlib.Logic.Relation
import Mathlib.Data.List.Basic
import Mathlib.Data.List.Count
import Mathlib.Algebra.BigOperators.Group.List.Basic
import Mathlib.Algebra.BigOperators.Ring.List
import Mathlib.Algebra.Ring.Nat
/- The depth-first traversal that computes the graph statistics. -/
namespace NDP
variable {H : Type} [DecidableEq H]

/-- The recorded edges of a node. -/
def kidsAt (nc : Dict H (List H)) (h : H) : List H := (nc.get? h).getD []

/-- Number of edges from the nodes `V` into `k`. -/
def edgesInto (nc : Dict H (List H)) (V : List H) (k : H) : Nat := (V.map fun h => (kidsAt nc h).count k).sum

/-- Times a node has been hit again. -/
def hitsAt (red : Dict H Nat) (k : H) : Nat := (red.get? k).getD 0

/-- Edges lead to recorded nodes. -/
def ClosedGraph (nc : Dict H (List H)) : Prop := ∀ h ks k, nc.get? h = some ks → k ∈ ks → k ∈ nc.keys

/-- Outcome of traversing the list of nodes `cs` from the state `st`. -/
structure Trav (nc : Dict H (List H)) (cs : List H) (st st' : DfsSt H) (new : List H) : Prop where
  desc : st'.desc = st.desc ++ new
  nd : st.desc.Nodup → st'.desc.Nodup
  sub : ∀ h ∈ new, h ∈ nc.keys
  reach : ∀ h ∈ new, ∃ c ∈ cs, Relation.ReflTransGen (fun x y => y ∈ kidsAt nc x) c h
  kids : ∀ h ∈ new, ∀ k ∈ kidsAt nc h, k ∈ st'.desc
  mem : ∀ c ∈ cs, c ∈ st'.desc
  count : ∀ k, hitsAt st'.red k + st'.desc.count k =
    hitsAt st.red k + st.desc.count k + cs.count k + edgesInto nc new k
  rednd : st.red.keys.Nodup → st'.red.keys.Nodup
  redpos : (∀ k v, st.red.get? k = some v → 0 < v) → ∀ k v, st'.red.get? k = some v → 0 < v

theorem Trav.nil (nc : Dict H (List H)) (st : DfsSt H) : Trav nc [] st st [] :=
  ⟨by simp, fun h => h, by simp, by simp, by simp, by simp, by simp [edgesInto], fun h => h, fun h => h⟩

theorem edgesInto_append (nc : Dict H (List H)) (V W : List H) (k : H) :
    edgesInto nc (V ++ W) k = edgesInto nc V k + edgesInto nc W k := by simp [edgesInto]

theorem Trav.cons {nc : Dict H (List H)} {c : H} {cs : List H} {st st1 st2 : DfsSt H} {n1 n2 : List H}
    (h1 : Trav nc [c] st st1 n1) (h2 : Trav nc cs st1 st2 n2) : Trav nc (c :: cs) st st2 (n1 ++ n2) := by
  refine ⟨?_, fun h => h2.nd (h1.nd h), ?_, ?_, ?_, ?_, ?_, fun h => h2.rednd (h1.rednd h),
    fun h => h2.redpos (h1.redpos h)⟩
  · rw [h2.desc, h1.desc, List.append_assoc]
  · intro h hh
    rcases List.mem_append.1 hh with hh | hh
    · exact h1.sub h hh
    · exact h2.sub h hh
  · intro h hh
    rcases List.mem_append.1 hh with hh | hh
    · obtain ⟨d, hd, hr⟩ := h1.reach h hh
      exact ⟨d, by simp at hd; simp [hd], hr⟩
    · obtain ⟨d, hd, hr⟩ := h2.reach h hh
      exact ⟨d, by simp [hd], hr⟩
  · intro h hh k hk
    rcases List.mem_append.1 hh with hh | hh
    · rw [h2.desc]; exact List.mem_append_left _ (h1.kids h hh k hk)
    · exact h2.kids h hh k hk
  · intro d hd
    rcases List.mem_cons.1 hd with rfl | hd
    · rw [h2.desc]; exact List.mem_append_left _ (h1.mem d (by simp))
    · exact h2.mem d hd
  · intro k
    have e1 := h1.count k
    have e2 := h2.count k
    rw [edgesInto_append]
    have : (c :: cs).count k = [c].count k + cs.count k := by
      rw [← List.count_append]; rfl
    omega

/-- Nodes not visited yet. -/
def unvisited (nc : Dict H (List H)) (V : List H) : Nat := (nc.keys.filter fun h => decide (h ∉ V)).length

theorem unvisited_mono {nc : Dict H (List H)} {V W : List H} (h : ∀ x ∈ V, x ∈ W) : unvisited nc W ≤ unvisited nc V := by
  unfold unvisited
  apply List.Sublist.length_le
  apply List.monotone_filter_right
  intro x hx
  simp only [decide_eq_true_eq] at hx ⊢
  exact fun hV => hx (h x hV)

theorem unvisited_lt {nc : Dict H (List H)} {V : List H} {n : H} (h1 : n ∈ nc.keys) (h2 : n ∉ V) :
    unvisited nc (V ++ [n]) < unvisited nc V := by
  unfold unvisited
  have : (nc.keys.filter fun h => decide (h ∉ V ++ [n])) =
      (nc.keys.filter fun h => decide (h ∉ V)).filter fun h => decide (h ≠ n) := by
    rw [List.filter_filter]
    apply List.filter_congr
    intro x _
    simp [Bool.and_comm]
  rw [this]
  apply List.length_filter_lt_length_iff_exists.2
  exact ⟨n, by simp [h1, h2], by simp⟩

theorem subgraphStats_ok {nc : Dict H (List H)} (hc : ClosedGraph nc) : ∀ (m : Nat) (st : DfsSt H) (n : H),
    unvisited nc st.desc ≤ m → n ∈ nc.keys → ∃ st' new, subgraphStats nc n st = pure st' ∧ Trav nc [n] st st' new := by
  intro m
  induction m with
  | zero =>
    intro st n hm hn
    rw [subgraphStats]
    by_cases hin : n ∈ st.desc
    swap
    · exact absurd (unvisited_lt hn hin) (by omega)
    rw [if_pos hin]
    refine ⟨_, [], rfl, by simp, fun h => h, by simp, by simp, by simp, by simpa using hin, ?_, ?_, ?_⟩
    · intro k
      simp only [hitsAt, Dict.get?_set]
      by_cases e : n = k
      · subst e; simp [edgesInto]; omega
      · simp [e, edgesInto]
    · exact fun h => Dict.nodup_keys_set _ _ _ h
    · intro h k v hk
      simp only [Dict.get?_set] at hk
      split at hk
      · cases hk; omega
      · exact h k v hk
  | succ m ih =>
    intro st n hm hn
    rw [subgraphStats]
    by_cases hin : n ∈ st.desc
    · rw [if_pos hin]
      refine ⟨_, [], rfl, by simp, fun h => h, by simp, by simp, by simp, by simpa using hin, ?_, ?_, ?_⟩
      · intro k
        simp only [hitsAt, Dict.get?_set]
        by_cases e : n = k
        · subst e; simp [edgesInto]; omega
        · simp [e, edgesInto]
      · exact fun h => Dict.nodup_keys_set _ _ _ h
      · intro h k v hk
        simp only [Dict.get?_set] at hk
        split at hk
        · cases hk; omega
        · exact h k v hk
    · rw [if_neg hin]
      obtain ⟨ks, hks⟩ := Dict.exists_get?_of_mem hn
      simp only [hks, orRaise_some, M.pure_bind]
      have hlt := unvisited_lt hn hin
      have loop : ∀ (cs : List H) (s1 : DfsSt H), (∀ c ∈ cs, c ∈ nc.keys) → unvisited nc s1.desc ≤ m →
          ∃ s2 new, cs.foldlM (fun st c => subgraphStats nc c st) s1 = pure s2 ∧ Trav nc cs s1 s2 new := by
        intro cs
        induction cs with
        | nil => intro s1 _ _; exact ⟨s1, [], rfl, Trav.nil _ _⟩
        | cons c cs ih2 =>
          intro s1 hcs hle
          obtain ⟨s2, n1, e1, t1⟩ := ih s1 c hle (hcs c (by simp))
          have hle2 : unvisited nc s2.desc ≤ m := by
            refine Nat.le_trans (unvisited_mono ?_) hle
            intro x hx; rw [t1.desc]; exact List.mem_append_left _ hx
          obtain ⟨s3, n2, e2, t2⟩ := ih2 s2 (fun c hc => hcs c (by simp [hc])) hle2
          refine ⟨s3, n1 ++ n2, ?_, t1.cons t2⟩
          rw [List.foldlM_cons, e1]; exact e2
      obtain ⟨s2, new, e, t⟩ := loop ks { st with desc := st.desc ++ [n] } (fun c hcs => hc n ks c hks hcs)
        (by simp only; omega)
      have hk : kidsAt nc n = ks := by simp [kidsAt, hks]
      refine ⟨s2, n :: new, e, ?_, ?_, ?_, ?_, ?_, ?_, ?_, t.rednd, t.redpos⟩
      · rw [t.desc]; simp
      · intro h
        apply t.nd
        simp only
        rw [List.nodup_append]
        exact ⟨h, by simp, by rintro x hx y hy rfl; simp at hy; subst hy; exact hin hx⟩
      · intro h hh
        rcases List.mem_cons.1 hh with rfl | hh
        · exact hn
        · exact t.sub h hh
      · intro h hh
        refine ⟨n, by simp, ?_⟩
        rcases List.mem_cons.1 hh with rfl | hh
        · exact Relation.ReflTransGen.refl
        · obtain ⟨c, hcs, hr⟩ := t.reach h hh
          exact Relation.ReflTransGen.head (by rw [hk]; exact hcs) hr
      · intro h hh k hk'
        rcases List.mem_cons.1 hh with rfl | hh
        · rw [hk] at hk'; exact t.mem k hk'
        · exact t.kids h hh k hk'
      · intro c hcs
        rw [List.mem_singleton] at hcs
        subst hcs
        rw [t.desc]; simp
      · intro k
        have := t.count k
        simp only [List.count_append] at this
        have e3 : edgesInto nc (n :: new) k = ks.count k + edgesInto nc new k := by
          simp [edgesInto, hk]
        rw [e3]; omega

/-- `V` lists each node reachable from `n` once. -/
def Enumerates (nc : Dict H (List H)) (n : H) (V : List H) : Prop :=
  V.Nodup ∧ ∀ h, h ∈ V ↔ Relation.ReflTransGen (fun x y => y ∈ kidsAt nc x) n h

/-- The traversal from a recorded node of a closed graph. -/
theorem subgraphStats_spec {nc : Dict H (List H)} (hc : ClosedGraph nc) {n : H} (hn : n ∈ nc.keys) :
    ∃ st, subgraphStats nc n {} = pure st ∧ Enumerates nc n st.desc ∧ st.red.keys.Nodup ∧
      (∀ k v, st.red.get? k = some v → 0 < v) ∧ (∀ h ∈ st.desc, h ∈ nc.keys) ∧
      ∀ k, hitsAt st.red k + st.desc.count k = [n].count k + edgesInto nc st.desc k := by
  obtain ⟨st, new, e, t⟩ := subgraphStats_ok hc _ {} n (Nat.le_refl _) hn
  have hd : st.desc = new := by simpa using t.desc
  refine ⟨st, e, ⟨t.nd (by simp), ?_⟩, t.rednd (by simp), t.redpos (by simp), ?_, ?_⟩
  · intro h
    constructor
    · intro hh
      rw [hd] at hh
      obtain ⟨c, hcs, hr⟩ := t.reach h hh
      rw [List.mem_singleton] at hcs
      subst hcs; exact hr
    · intro hr
      induction hr with
      | refl => exact t.mem n (by simp)
      | tail _ hk ih => rw [hd] at ih; exact t.kids _ ih _ hk
  · intro h hh; rw [hd] at hh; exact t.sub h hh
  · intro k
    have := t.count k
    rw [← hd] at this
    simpa [hitsAt] using this

/-! ### the reported numbers -/

theorem count_one {V : List H} (h : V.Nodup) {x : H} (hx : x ∈ V) : V.count x = 1 := by
  induction V with
  | nil => simp at hx
  | cons y V ih =>
    rw [List.nodup_cons] at h
    rw [List.count_cons]
    rcases List.mem_cons.1 hx with rfl | hx
    · simp [List.count_eq_zero.2 h.1]
    · have : y ≠ x := by rintro rfl; exact h.1 hx
      simp [ih h.2 hx, this]

/-- Statistics of the node `n`, given the list `V` of the nodes reachable from it. -/
structure StatsOf (nc : Dict H (List H)) (n : H) (V : List H) (s : NodeStats) : Prop where
  unique : s.unique = V.length
  redundants : s.redundants = (V.filter fun k => decide (2 ≤ edgesInto nc V k + [n].count k)).length
  hits : s.hits + V.length = (V.map fun h => (kidsAt nc h).length).sum + 1

theorem sum_indicator {V : List H} (x : H) : (V.map fun k => if x = k then 1 else 0).sum = V.count x := by
  induction V with
  | nil => rfl
  | cons y V ih =>
    simp only [List.map_cons, List.sum_cons, ih, List.count_cons]
    by_cases e : x = y
    · subst e; simp; omega
    · simp [e, Ne.symm e]

theorem sum_count {V : List H} (hV : V.Nodup) : ∀ {l : List H}, (∀ x ∈ l, x ∈ V) →
    (V.map fun k => l.count k).sum = l.length := by
  intro l
  induction l with
  | nil => intro _; simp
  | cons x l ih =>
    intro h
    have h1 : (V.map fun k => (x :: l).count k) = V.map fun k => l.count k + if x = k then 1 else 0 := by
      apply List.map_congr_left
      intro k _
      rw [List.count_cons]; simp
    rw [h1, List.sum_map_add, ih (fun y hy => h y (by simp [hy])), sum_indicator, count_one hV (h x (by simp))]
    simp

theorem sum_edgesInto {nc : Dict H (List H)} {V : List H} (hV : V.Nodup) : ∀ {W : List H},
    (∀ h ∈ W, ∀ k ∈ kidsAt nc h, k ∈ V) →
    (V.map fun k => edgesInto nc W k).sum = (W.map fun h => (kidsAt nc h).length).sum := by
  intro W
  induction W with
  | nil => intro _; simp [edgesInto]
  | cons h W ih =>
    intro hk
    have h1 : (V.map fun k => edgesInto nc (h :: W) k) = V.map fun k => (kidsAt nc h).count k + edgesInto nc W k := by
      apply List.map_congr_left
      intro k _
      simp [edgesInto]
    rw [h1, List.sum_map_add, ih (fun x hx => hk x (by simp [hx])), sum_count hV (hk h (by simp))]
    simp

theorem sum_hits {red : Dict H Nat} (hnd : red.keys.Nodup) {V : List H} (hV : V.Nodup) (hsub : ∀ k ∈ red.keys, k ∈ V) :
    (V.map fun k => hitsAt red k).sum = red.values.sum := by
  induction red with
  | nil => simp [hitsAt, Dict.values]
  | cons p red ih =>
    rw [Dict.keys_cons, List.nodup_cons] at hnd
    have h1 : (V.map fun k => hitsAt (p :: red) k) = V.map fun k => (if p.1 = k then (1 : Nat) else 0) * p.2 + hitsAt red k := by
      apply List.map_congr_left
      intro k _
      unfold hitsAt
      rw [Dict.get?_cons]
      by_cases e : p.1 = k
      · have : Dict.get? red k = none := (Dict.get?_eq_none_iff _ _).2 (e ▸ hnd.1)
        simp [e, this]
      · simp [e]
    rw [h1, List.sum_map_add, ih hnd.2 (fun k hk => hsub k (by simp [hk])), List.sum_map_mul_right (R := Nat), sum_indicator,
      count_one hV (hsub p.1 (by simp))]
    simp [Dict.values]

theorem edgesInto_eq_zero {nc : Dict H (List H)} {V : List H} {k : H} (h : ∀ x ∈ V, k ∉ kidsAt nc x) :
    edgesInto nc V k = 0 := by
  unfold edgesInto
  rw [List.sum_eq_zero]
  intro n hn
  obtain ⟨x, hx, rfl⟩ := List.mem_map.1 hn
  exact List.count_eq_zero.2 (h x hx)

theorem nodeStats_ok {nc : Dict H (List H)} (hc : ClosedGraph nc) {n : H} (hn : n ∈ nc.keys) :
    ∃ s red V, nodeStats nc n = pure (s, red) ∧ Enumerates nc n V ∧ (∀ h ∈ V, h ∈ nc.keys) ∧ StatsOf nc n V s ∧
      ∀ k, hitsAt red k + V.count k = [n].count k + edgesInto nc V k := by
  obtain ⟨st, e, hV, hnd, hpos, hsub, hcnt⟩ := subgraphStats_spec hc hn
  have hkid : ∀ h ∈ st.desc, ∀ k ∈ kidsAt nc h, k ∈ st.desc := by
    intro h hh k hk
    rw [hV.2] at hh ⊢
    exact hh.tail hk
  have hnV : n ∈ st.desc := (hV.2 n).2 Relation.ReflTransGen.refl
  have hzero : ∀ k, k ∉ st.desc → hitsAt st.red k = 0 := by
    intro k hk
    have h1 := hcnt k
    rw [edgesInto_eq_zero (fun x hx hkx => hk (hkid x hx k hkx)), (List.count_eq_zero (a := k) (l := [n])).2] at h1
    · omega
    · simp; rintro rfl; exact hk hnV
  have hkeys : ∀ k, k ∈ st.red.keys ↔ 0 < hitsAt st.red k := by
    intro k
    rw [Dict.mem_keys_iff]
    unfold hitsAt
    match h : st.red.get? k with
    | none => simp
    | some v => simpa using hpos k v h
  have hkV : ∀ k ∈ st.red.keys, k ∈ st.desc := by
    intro k hk
    by_contra hn'
    have := (hkeys k).1 hk
    rw [hzero k hn'] at this; omega
  refine ⟨_, _, st.desc, by unfold nodeStats; rw [e]; rfl, hV, hsub, ⟨rfl, ?_, ?_⟩, hcnt⟩
  · simp only
    rw [← Dict.length_keys]
    apply List.Perm.length_eq
    rw [List.perm_ext_iff_of_nodup hnd (hV.1.filter _)]
    intro k
    rw [hkeys, List.mem_filter]
    constructor
    · intro hk
      have hm := hkV k ((hkeys k).2 hk)
      have h1 := hcnt k
      rw [count_one hV.1 hm] at h1
      refine ⟨hm, ?_⟩
      simp only [decide_eq_true_eq]
      omega
    · rintro ⟨hm, h2⟩
      simp only [decide_eq_true_eq] at h2
      have h1 := hcnt k
      rw [count_one hV.1 hm] at h1
      omega
  · simp only
    have h1 : (st.desc.map fun k => hitsAt st.red k + st.desc.count k).sum =
        (st.desc.map fun k => [n].count k + edgesInto nc st.desc k).sum := by
      congr 1
      apply List.map_congr_left
      intro k _; exact hcnt k
    rw [List.sum_map_add, List.sum_map_add, sum_hits hnd hV.1 hkV, sum_count hV.1 (fun x hx => hx),
      sum_count hV.1 (by simpa using hnV), sum_edgesInto hV.1 hkid] at h1
    simp only [List.length_singleton] at h1
    omega

/-- Statistics are computed for every node; `red` is the hit count of the root's traversal. -/
theorem constructGraphStats_ok {nc : Dict H (List H)} (hc : ClosedGraph nc) (hnd : nc.keys.Nodup) (root : H) :
    ∃ stats red, constructGraphStats root nc = pure (stats, red) ∧
      ∀ n ∈ nc.keys, ∃ s r V, stats.get? n = some s ∧ nodeStats nc n = pure (s, r) ∧ Enumerates nc n V ∧
        (∀ h ∈ V, h ∈ nc.keys) ∧ StatsOf nc n V s ∧ (n = root → red = r) := by
  unfold constructGraphStats
  have loop : ∀ (ks : List H) (acc : Dict H NodeStats × Dict H Nat), ks.Nodup → (∀ k ∈ ks, k ∈ nc.keys) →
      ∃ acc', ks.foldlM (fun acc n => do
        let (s, red) ← nodeStats nc n
        pure (acc.1.set n s, if n = root then red else acc.2)) acc = pure acc' ∧
      (∀ n, n ∉ ks → acc'.1.get? n = acc.1.get? n) ∧ (root ∉ ks → acc'.2 = acc.2) ∧
      ∀ n ∈ ks, ∃ s r V, acc'.1.get? n = some s ∧ nodeStats nc n = pure (s, r) ∧ Enumerates nc n V ∧
        (∀ h ∈ V, h ∈ nc.keys) ∧ StatsOf nc n V s ∧ (n = root → acc'.2 = r) := by
    intro ks
    induction ks with
    | nil => intro acc _ _; exact ⟨acc, rfl, by simp, by simp, by simp⟩
    | cons k ks ih =>
      intro acc hnd hks
      rw [List.nodup_cons] at hnd
      obtain ⟨s, r, V, e, h1, h2, h3, _⟩ := nodeStats_ok hc (hks k (by simp))
      obtain ⟨acc', e', f1, f2, f3⟩ := ih (acc.1.set k s, if k = root then r else acc.2) hnd.2
        (fun x hx => hks x (by simp [hx]))
      refine ⟨acc', ?_, ?_, ?_, ?_⟩
      · rw [List.foldlM_cons, e]; exact e'
      · intro n hn
        rw [f1 n (fun h => hn (by simp [h])), Dict.get?_set_ne]
        rintro rfl; simp at hn
      · intro hr
        rw [f2 (fun h => hr (by simp [h]))]
        simp only
        rw [if_neg]; rintro rfl; simp at hr
      · intro n hn
        rcases List.mem_cons.1 hn with rfl | hn
        · refine ⟨s, r, V, ?_, e, h1, h2, h3, ?_⟩
          · rw [f1 n hnd.1]; simp
          · rintro rfl
            rw [f2 hnd.1]; simp
        · exact f3 n hn
  obtain ⟨acc', e, _, _, h3⟩ := loop nc.keys ([], []) hnd (fun k hk => hk)
  exact ⟨acc'.1, acc'.2, e, h3⟩

/-- In a graph without cycles nothing leads back to the node where the traversal starts. -/
theorem StatsOf.acyclic {nc : Dict H (List H)} {n : H} {V : List H} {s : NodeStats} (h : StatsOf nc n V s)
    (hV : Enumerates nc n V) (rank : H → Nat) (hr : ∀ x, ∀ y ∈ kidsAt nc x, rank y < rank x) :
    s.redundants = (V.filter fun k => decide (2 ≤ edgesInto nc V k)).length := by
  rw [h.redundants]
  congr 1
  apply List.filter_congr
  intro k hk
  by_cases e : n = k
  · subst e
    have : edgesInto nc V n = 0 := by
      apply edgesInto_eq_zero
      intro x hx hnx
      have hreach := (hV.2 x).1 hx
      have hle : rank x ≤ rank n := by
        clear hnx hx
        induction hreach with
        | refl => exact Nat.le_refl _
        | tail _ hk ih => have := hr _ _ hk; omega
      have := hr x n hnx
      omega
    rw [this]; simp
  · simp [e]

end NDP
