import Verif.Proofs.Child
import Mathlib.Logic.Relation
import Mathlib.Tactic.NormNum
/- The search loop of one process: invariant, termination, verdict, graph (no global DB). -/
namespace NDP
open Spec SetObj
variable {H : Type} [DecidableEq H] (hash : Str → H) (a : Args) (im : Mode)

/-- The nodes that can be met below the root `s0`, as they come out of the queue. -/
inductive Met (s0 : SetObj H) : SetObj H → Prop
  | root : Met s0 (store a.useRuntimeDb s0)
  | child {s l r ch c : SetObj H} (hs : Met s0 s) (hev : s.evaluate = pure (some (l, r)))
      (hch : ch = l ∨ ch = r) (hv : ch.value = none) (hlo : ch.toLo im a.sortBySize a.thief = pure c) :
      Met s0 (store a.useRuntimeDb (childItem hash c))

/-- No two different sets met in the search have the same digest. -/
def NoColl (s0 : SetObj H) : Prop :=
  ∀ s t, Met hash a im s0 s → Met hash a im s0 t → hid hash s = hid hash t → raws s.clauses = raws t.clauses

/-- One edge of the node graph. -/
def Edge (nc : Dict H (List H)) (h k : H) : Prop := ∃ ks, nc.get? h = some ks ∧ k ∈ ks

/-- Reachability in the node graph. -/
abbrev Reach (nc : Dict H (List H)) : H → H → Prop := Relation.ReflTransGen (Edge nc)

/-- `ks` is the complete list of edges of the node `s`. -/
def Kids (s : SetObj H) (ks : List H) : Prop :=
  ∃ l r, s.evaluate = pure (some (l, r)) ∧ ks = kidsOf hash a im l ++ kidsOf hash a im r

/-- Some child of the node `s` is T. -/
def TrueChild (s : SetObj H) : Prop :=
  ∃ l r, s.evaluate = pure (some (l, r)) ∧ (l.value = some true ∨ r.value = some true)

/-- Invariant of a process started on the node with identity `root`, with the nodes `l` on its queue. -/
structure Inv (R : Cnf) (s0 : SetObj H) (root : H) (ps : PS H) (l : List (SetObj H)) : Prop where
  rep : Rep ps.queue l
  db : ps.queue.useDb = a.useRuntimeDb
  rows : a.useRuntimeDb = true → ∀ k ∈ ps.queue.table.rows.keys, k ∈ ps.nodesChildren.keys
  items : ∀ x ∈ l, Tracks R x ∧ Met hash a im s0 x ∧ (a.useRuntimeDb = true → EvPos x) ∧
    x.id = some (hid hash x) ∧ ps.nodesChildren.get? (hid hash x) = some []
  ids : (l.map (hid hash)).Nodup
  done : ∀ h ks, ps.nodesChildren.get? h = some ks → (∃ x ∈ l, hid hash x = h) ∨
    ∃ s, Tracks R s ∧ Met hash a im s0 s ∧ hid hash s = h ∧ Kids hash a im s ks ∧
      (∀ k ∈ ks, k ∈ ps.nodesChildren.keys) ∧ (TrueChild s → ps.isSat = true)
  sat : ps.isSat = true ↔ ps.solution.isSome
  sol : ∀ d, ps.solution = some d → MakesTrue d R ∧ SolKeys d
  rootMem : root ∈ ps.nodesChildren.keys
  reach : ∀ h ∈ ps.nodesChildren.keys, Reach ps.nodesChildren root h
  nd : ps.nodesChildren.keys.Nodup

theorem Tracks.sat_iff {R : Cnf} {s : SetObj H} (h : Tracks R s) :
    Satisfiable (raws s.clauses) ↔ Satisfiable (residual s.evaluatedVars R) := by
  rw [← SameClauses.satisfiable h.same]
  rw [satisfiable_mapCnf (fun v hv => by have := h.pos v hv; omega) h.inj]

/-- If a node is satisfiable, it has a T child or a satisfiable smaller child. -/
theorem sat_child {R : Cnf} (hR : Proper R) {s l r : SetObj H} (hs : Tracks R s)
    (hl : IsChild s true l) (hr : IsChild s false r)
    (hsat : Satisfiable (raws s.clauses)) :
    l.value = some true ∨ r.value = some true ∨ ∃ ch c, (ch = l ∨ ch = r) ∧ ch.value = none ∧
      ch.toLo im a.sortBySize a.thief = pure c ∧ hid hash c ∈ kidsOf hash a im ch ∧
      size (raws c.clauses) < size (raws s.clauses) ∧ Satisfiable (raws c.clauses) := by
  obtain ⟨b, hb1, hb2⟩ := branch_children (pivotOf (raws s.clauses)) hsat
  have main : ∀ ch, (ch = l ∨ ch = r) → IsChild s b ch → (ch.value = some true ∨
      ∃ c, ch.value = none ∧ ch.toLo im a.sortBySize a.thief = pure c ∧ hid hash c ∈ kidsOf hash a im ch ∧
      size (raws c.clauses) < size (raws s.clauses) ∧ Satisfiable (raws c.clauses)) := by
    intro ch _ hch
    by_cases hnil : branch (pivotOf (raws s.clauses)) b (raws s.clauses) = []
    · left; rw [hch.value, childVal_true]; exact hnil
    · right
      have hv : ch.value = none := by
        rw [hch.value]; unfold childVal; simp [hb1, hnil]
      have hpre := hch.pre hs hv
      obtain ⟨c, hlo, htr, hsz, _, _, hsame⟩ := toLo_tracks hR im a.sortBySize a.thief hpre
      refine ⟨c, hv, hlo, ?_, ?_, ?_⟩
      · unfold kidsOf; rw [hv, hlo]; simp [pure, ExceptT.pure, ExceptT.mk]
      · have := hch.size_lt hs; omega
      · have h1 : raws ch.clauses = branch (pivotOf (raws s.clauses)) b (raws s.clauses) := by
          rw [hch.clauses, nonempties_eq hb1]
        rw [htr.sat_iff]
        have h2 := (SameClauses.satisfiable hpre.same)
        have h3 : Satisfiable (mapCnf (fun v => (ch.originalValues.get? v).getD 0) (raws ch.clauses)) ↔
            Satisfiable (raws ch.clauses) := by
          apply satisfiable_mapCnf
          · intro v hv' e
            have hm : (ch.originalValues.get? v).getD 0 ∈ varsOf (residual ch.evaluatedVars R) := by
              rw [← SameClauses.mem_vars hpre.same, varsOf_mapCnf]; exact ⟨v, hv', rfl⟩
            have := Proper.pos_vars hR hm
            omega
          · exact hpre.inj
        have h4 : c.evaluatedVars = ch.evaluatedVars := by
          obtain ⟨c', hlo', _, _, he, _⟩ := toLo_tracks hR im a.sortBySize a.thief hpre
          rw [hlo] at hlo'
          have : c = c' := by simpa using hlo'
          subst this; exact he
        rw [h4, ← h2, h3, h1]; exact hb2
  cases b with
  | true =>
    rcases main l (Or.inl rfl) hl with h | ⟨c, h1, h2, h3, h4, h5⟩
    · exact Or.inl h
    · exact Or.inr (Or.inr ⟨l, c, Or.inl rfl, h1, h2, h3, h4, h5⟩)
  | false =>
    rcases main r (Or.inr rfl) hr with h | ⟨c, h1, h2, h3, h4, h5⟩
    · exact Or.inr (Or.inl h)
    · exact Or.inr (Or.inr ⟨r, c, Or.inr rfl, h1, h2, h3, h4, h5⟩)

theorem pure_inj_some {α : Type} {x y : α} (h : (pure (some x) : M (Option α)) = pure (some y)) : x = y := by
  simpa using h

theorem toLo_childItem_tracks {R : Cnf} (hR : Proper R) {s ch c : SetObj H} {b : Bool} (hs : Tracks R s)
    (hch : IsChild s b ch) (hv : ch.value = none) (hlo : ch.toLo im a.sortBySize a.thief = pure c) :
    Tracks R (childItem hash c) := by
  obtain ⟨c', hlo', htr, hsz, hev, _⟩ := toLo_tracks hR im a.sortBySize a.thief (hch.pre hs hv)
  rw [hlo] at hlo'
  have : c = c' := by simpa using hlo'
  subst this
  exact ⟨⟨htr.node.ne, htr.node.cne, htr.node.asc, htr.node.vars, htr.node.names, htr.node.value⟩,
        htr.pos, htr.inj, htr.same, htr.evnd, htr.nvars, htr.ovnd, htr.evp⟩

/-- Every met set is a tracked node. -/
theorem Met.tracks {R : Cnf} (hR : Proper R) {s0 s : SetObj H} (h0 : Tracks R s0) (h : Met hash a im s0 s) :
    Tracks R s := by
  induction h with
  | root => exact h0.store _
  | child hs hev hch hv hlo ih =>
    obtain ⟨l', r', hev', hl, hr⟩ := evaluate_ok ih.node
    rw [hev] at hev'
    cases pure_inj_some hev'
    rcases hch with rfl | rfl
    · exact (toLo_childItem_tracks hash a im hR ih hl hv hlo).store _
    · exact (toLo_childItem_tracks hash a im hR ih hr hv hlo).store _

/-- With nothing satisfiable left on the queue and no T child found, nothing in the graph is satisfiable. -/
theorem Inv.unsat {R : Cnf} (hR : Proper R) {s0 : SetObj H} (hs0 : Tracks R s0) (hcoll : NoColl hash a im s0)
    {root : H} {ps : PS H} {l : List (SetObj H)} (h : Inv hash a im R s0 root ps l) (hns : ps.isSat = false)
    (hq : ∀ x ∈ l, ¬ Satisfiable (raws x.clauses)) :
    ∀ n (s : SetObj H), size (raws s.clauses) ≤ n → Met hash a im s0 s → hid hash s ∈ ps.nodesChildren.keys →
      ¬ Satisfiable (raws s.clauses) := by
  intro n
  induction n with
  | zero =>
    intro s hn hm _ _
    have ht := hm.tracks hash a im hR hs0
    have := ht.node.cne
    match hc : s.clauses with
    | [] => exact ht.node.ne hc
    | c :: cs =>
      rw [hc] at hn
      have h1 := ht.node.cne c (by simp [hc])
      have : c.raw.length ≤ 0 := by
        have e : size (raws (c :: cs)) = c.raw.length + size (raws cs) := size_cons _ _
        omega
      exact h1 (by simpa using this)
  | succ n ih =>
    intro s hn hm hk hsat
    obtain ⟨ks, hks⟩ := Dict.exists_get?_of_mem hk
    rcases h.done _ _ hks with ⟨x, hx, e⟩ | ⟨t, ht, htm, hte, ⟨l', r', hev, hks'⟩, hkeys, htrue⟩
    · have := hcoll x s (h.items x hx).2.1 hm e
      exact hq x hx (this ▸ hsat)
    · have hraw := hcoll t s htm hm hte
      rw [← hraw] at hsat
      obtain ⟨l'', r'', hev', hl, hr⟩ := evaluate_ok ht.node
      rw [hev] at hev'
      cases pure_inj_some hev'
      rcases sat_child hash a im hR ht hl hr hsat with h1 | h1 | ⟨ch, c, hch, hv, hlo, hkid, hsz, hcs⟩
      · have := htrue ⟨_, _, hev, Or.inl h1⟩
        rw [hns] at this; simp at this
      · have := htrue ⟨_, _, hev, Or.inr h1⟩
        rw [hns] at this; simp at this
      · have hmc : Met hash a im s0 (store a.useRuntimeDb (childItem hash c)) := Met.child htm hev hch hv hlo
        have hrawc : raws (store a.useRuntimeDb (childItem hash c)).clauses = raws c.clauses :=
          raws_store _ _
        have hnode : Node (childItem hash c) := by
          rcases hch with rfl | rfl
          · exact (toLo_childItem_tracks hash a im hR ht hl hv hlo).node
          · exact (toLo_childItem_tracks hash a im hR ht hr hv hlo).node
        have hidc : hid hash (store a.useRuntimeDb (childItem hash c)) = hid hash c := hid_store hash hnode _
        apply ih _ _ hmc
        · rw [hidc]
          apply hkeys
          rw [hks']
          rcases hch with rfl | rfl
          · exact List.mem_append_left _ hkid
          · exact List.mem_append_right _ hkid
        · rw [hrawc]; exact hcs
        · rw [hrawc]; rw [hraw] at hsz; omega

/-! ### the step -/

theorem get?_perm {κ β : Type} [DecidableEq κ] {d e : Dict κ β} (hp : List.Perm d e) (hd : d.keys.Nodup) (k : κ) :
    d.get? k = e.get? k := by
  have he : e.keys.Nodup := ((hp.map Prod.fst).nodup_iff).1 hd
  apply Option.ext
  intro v
  rw [← Dict.mem_iff_get? hd, ← Dict.mem_iff_get? he]
  exact hp.mem_iff

theorem sortItems_perm (d : Dict Int Bool) : List.Perm (sortItems d) d := isort_perm _ d

theorem sortItems_nodup {d : Dict Int Bool} (h : d.keys.Nodup) : (sortItems d).keys.Nodup :=
  (((sortItems_perm d).map Prod.fst).nodup_iff).2 h

theorem SolKeys.nodup {d : Dict Int Bool} (h : SolKeys d) : d.keys.Nodup :=
  h.1.imp fun h => by omega

theorem sortItems_solKeys {d : Dict Int Bool} (h : d.keys.Nodup) (hp : ∀ k ∈ d.keys, 1 ≤ k) : SolKeys (sortItems d) := by
  have hm : ∀ k, k ∈ (sortItems d).keys ↔ k ∈ d.keys := fun k => ((sortItems_perm d).map Prod.fst).mem_iff
  refine ⟨?_, fun k hk => hp k ((hm k).1 hk)⟩
  have hs : SortedBy (fun (x y : Int × Bool) => decide (x.1 < y.1)) (sortItems d) := by
    apply isort_sorted
    · intro a b h; simp at *; omega
    · intro a b c h1 h2; simp at *; omega
  have hn := sortItems_nodup h
  unfold Dict.keys at hn ⊢
  rw [List.Nodup, List.pairwise_map] at hn
  rw [List.pairwise_map]
  refine (hs.and hn).imp ?_
  intro x y ⟨h1, h2⟩
  simp at h1
  omega

theorem get?_sortItems {d : Dict Int Bool} (h : d.keys.Nodup) (k : Int) : (sortItems d).get? k = d.get? k :=
  get?_perm (sortItems_perm d) (sortItems_nodup h) k

theorem makesTrue_congr {d e : Dict Int Bool} (h : ∀ k, d.get? k = e.get? k) {F : Cnf} :
    MakesTrue d F ↔ MakesTrue e F := by
  unfold MakesTrue; simp only [partialVal_congr h]

/-- Verdict and solution after one child. -/
theorem ChildStep.verdict {R : Cnf} {x ch : SetObj H} {b : Bool} (hx : Tracks R x) (hch : IsChild x b ch)
    {pid : H} {ps ps' : PS H} {news : List (SetObj H)} (h : ChildStep hash a im pid ps ch ps' news)
    (h1 : ps.isSat = true ↔ ps.solution.isSome)
    (h2 : ∀ d, ps.solution = some d → MakesTrue d R ∧ SolKeys d) :
    (ps'.isSat = true ↔ ps'.solution.isSome) ∧
    (∀ d, ps'.solution = some d → MakesTrue d R ∧ SolKeys d) ∧
    (ps.isSat = true → ps'.isSat = true) ∧ (ch.value = some true → ps'.isSat = true) := by
  cases h with
  | uniq c ks hv => exact ⟨h1, h2, fun h => h, by rw [hv]; simp⟩
  | red c ks rids hv => exact ⟨h1, h2, fun h => h, by rw [hv]; simp⟩
  | const v hv =>
    cases v with
    | false =>
      simp only [Bool.false_eq_true, false_and, if_false, Bool.or_false]
      exact ⟨h1, h2, fun h => h, by rw [hv]; simp⟩
    | true =>
      simp only [true_and, Bool.or_true]
      have hnd : ch.evaluatedVars.keys.Nodup := by rw [hch.ev]; exact Dict.nodup_keys_set _ _ _ hx.evnd
      refine ⟨?_, ?_, fun _ => trivial, fun _ => trivial⟩
      · split
        · simp
        · next hs => simp; exact Option.isSome_iff_ne_none.2 hs
      · intro d hd
        split at hd
        · have e : sortItems ch.evaluatedVars = d := by simpa using hd
          subst e
          exact ⟨(makesTrue_congr (get?_sortItems hnd)).2 (hch.makesTrue hx hv), sortItems_solKeys hnd (hch.evp hx)⟩
        · exact h2 d hd

theorem ChildStep.small {pid : H} {ps ps' : PS H} {ch : SetObj H} {news : List (SetObj H)}
    (h : ChildStep hash a im pid ps ch ps' news) : news.length ≤ 1 := by cases h <;> simp

/-- The counter of unique nodes follows the size of the graph. -/
theorem ChildStep.count {pid : H} {ps ps' : PS H} {ch : SetObj H} {news : List (SetObj H)}
    (h : ChildStep hash a im pid ps ch ps' news) {ks : List H} (hpid : ps.nodesChildren.get? pid = some ks) :
    ps'.uniques + ps.nodesChildren.length = ps.uniques + ps'.nodesChildren.length := by
  have hm := Dict.mem_keys_of_get? hpid
  cases h with
  | const v hv => rfl
  | uniq c ks' hv hlo hnew hpid' =>
    simp only
    rw [Dict.length_set_of_mem _ _ _ ((Dict.mem_keys_set _ _ _ _).2 (Or.inr hm)),
      Dict.set_of_not_mem _ _ _ ((Dict.get?_eq_none_iff _ _).1 hnew)]
    simp; omega
  | red c ks' rids hv hlo hold hpid' =>
    simp only
    rw [Dict.length_set_of_mem _ _ _ hm]

theorem nodup_of_length_le_one {α : Type} {l : List α} (h : l.length ≤ 1) : l.Nodup := by
  match l with
  | [] => simp
  | [x] => simp
  | _ :: _ :: _ => simp at h

/-- Work left on the queue. -/
def weight (l : List (SetObj H)) : Nat := (l.map fun x => 3 ^ size (raws x.clauses)).sum

theorem weight_append (l m : List (SetObj H)) : weight (l ++ m) = weight l + weight m := by
  simp [weight]

/-- Expanding the first node preserves the invariant and reduces the work left. -/
theorem Inv.step' (hg : a.useGlobalDb = false) (seen : List H) {R : Cnf} (hR : Proper R) {s0 : SetObj H}
    {root : H} {ps : PS H} {x : SetObj H} {l : List (SetObj H)} (h : Inv hash a im R s0 root ps (x :: l)) :
    ∃ ps' l', expand hash a im seen ps = pure ps' ∧ Inv hash a im R s0 root ps' l' ∧
      weight l' < weight (x :: l) ∧ (∀ k ∈ ps.nodesChildren.keys, k ∈ ps'.nodesChildren.keys) ∧
      (ps.isSat = true → ps'.isSat = true) ∧ l'.length ≤ l.length + 2 ∧
      ps'.uniques + ps.nodesChildren.length = ps.uniques + ps'.nodesChildren.length ∧
      ∃ ids, l'.map (hid hash) = l.map (hid hash) ++ ids ∧ (∀ k ∈ ids, k ∉ ps.nodesChildren.keys) ∧
        ∀ k ∈ ps'.nodesChildren.keys, k ∈ ps.nodesChildren.keys ∨ k ∈ ids := by
  obtain ⟨hxt, hxm, hxp, hxi, hxn⟩ := h.items x (by simp)
  obtain ⟨ps', ps1, ps2, lft, rgt, n1, n2, q0, q, hrun, hev, hl, hr, s1, s2, hps', hrep, hdb, hrows⟩ :=
    expand_ok hash a im hg seen hR h.rep hxt (by rw [h.db]; exact hxp) hxi hxn (by rw [h.db]; exact h.rows)
  obtain ⟨g1, g2, g3, g4, g5, g6⟩ := s1.graph hash a im (ps := { ps with queue := q0 }) hxn
  obtain ⟨k1, k2, k3, k4, k5, k6⟩ := s2.graph hash a im g1
  have w1 := s1.news hash a im hR hxt hl
  have w2 := s2.news hash a im hR hxt hr
  obtain ⟨v1, v2, v3, v4⟩ := s1.verdict hash a im hxt hl h.sat h.sol
  obtain ⟨u1, u2, u3, u4⟩ := s2.verdict hash a im hxt hr v1 v2
  have hnc : ps'.nodesChildren = ps2.nodesChildren := by rw [hps']
  have hsat' : ps'.isSat = ps2.isSat := by rw [hps']
  have hsol' : ps'.solution = ps2.solution := by rw [hps']
  have hq' : ps'.queue = q := by rw [hps']
  generalize hpid : hid hash x = pid at *
  simp only [List.nil_append] at g1 k1
  -- identities of the new nodes
  have hpid1 : ∀ n ∈ n1, hid hash n ≠ pid := by
    intro n hn e
    have := g4 n hn
    simp only [e, hxn] at this; simp at this
  have hpid2 : ∀ n ∈ n2, hid hash n ≠ pid := by
    intro n hn e
    have := k4 n hn
    rw [e, g1] at this; simp at this
  have hold2 : ∀ n ∈ n2, hid hash n ∉ n1.map (hid hash) ∧ ps.nodesChildren.get? (hid hash n) = none := by
    intro n hn
    have h0 := k4 n hn
    rw [g2 _ (hpid2 n hn)] at h0
    split at h0
    · simp at h0
    · next hh => exact ⟨hh, h0⟩
  have hnewpid : ∀ n ∈ n1 ++ n2, hid hash n ≠ pid := by
    intro n hn
    rcases List.mem_append.1 hn with hn | hn
    · exact hpid1 n hn
    · exact hpid2 n hn
  have hnewnone : ∀ n ∈ n1 ++ n2, ps.nodesChildren.get? (hid hash n) = none := by
    intro n hn
    rcases List.mem_append.1 hn with hn | hn
    · exact g4 n hn
    · exact (hold2 n hn).2
  -- the new graph
  have hget : ∀ k, k ≠ pid → ps'.nodesChildren.get? k =
      if k ∈ (n1 ++ n2).map (hid hash) then some [] else ps.nodesChildren.get? k := by
    intro k hk
    rw [hnc, k2 k hk, g2 k hk, List.map_append]
    by_cases e1 : k ∈ n1.map (hid hash) <;> by_cases e2 : k ∈ n2.map (hid hash) <;>
      simp only [List.mem_append, e1, e2, if_true, if_false, or_true, true_or, or_false]
  have hgetpid : ps'.nodesChildren.get? pid = some (kidsOf hash a im lft ++ kidsOf hash a im rgt) := by
    rw [hnc, k1]
  have hmono : ∀ k ∈ ps.nodesChildren.keys, k ∈ ps'.nodesChildren.keys := by
    intro k hk
    rw [Dict.mem_keys_iff] at hk ⊢
    by_cases e : k = pid
    · rw [e, hgetpid]; rfl
    · rw [hget k e]; split
      · rfl
      · exact hk
  have hsame : ∀ k ks, k ≠ pid → ps.nodesChildren.get? k = some ks → ps'.nodesChildren.get? k = some ks := by
    intro k ks e hk
    rw [hget k e, if_neg, hk]
    intro hm
    obtain ⟨n, hn, rfl⟩ := List.mem_map.1 hm
    rw [hnewnone n hn] at hk; simp at hk
  have hkids : ∀ k ∈ kidsOf hash a im lft ++ kidsOf hash a im rgt, k ∈ ps'.nodesChildren.keys := by
    intro k hk
    rw [Dict.mem_keys_iff, hnc]
    rcases List.mem_append.1 hk with hk | hk
    · have := g3 k hk
      by_cases e : k = pid
      · rw [e, k1]; rfl
      · rw [k2 k e]; split
        · rfl
        · exact this
    · exact k3 k hk
  have hnewmem : ∀ n ∈ n1 ++ n2, hid hash n ∈ kidsOf hash a im lft ++ kidsOf hash a im rgt := by
    intro n hn
    rcases List.mem_append.1 hn with hn | hn
    · exact List.mem_append_left _ (g5 n hn)
    · exact List.mem_append_right _ (k5 n hn)
  -- queue ids
  have hids : pid ∉ l.map (hid hash) ∧ (l.map (hid hash)).Nodup := by
    have := h.ids
    rw [List.map_cons, List.nodup_cons, hpid] at this
    exact this
  have hlpid : ∀ y ∈ l, hid hash y ≠ pid := by
    intro y hy e; exact hids.1 (List.mem_map.2 ⟨y, hy, e⟩)
  have hnews : ∀ n ∈ n1 ++ n2, Tracks R n ∧ (EvPos x → EvPos n) ∧ n.id = some (hid hash n) ∧
      size (raws n.clauses) < size (raws x.clauses) ∧ Met hash a im s0 (store a.useRuntimeDb n) := by
    intro n hn
    rcases List.mem_append.1 hn with hn | hn
    · obtain ⟨t1, t2, t3, t4, c, t5, t6, rfl⟩ := w1 n hn
      exact ⟨t1, t2, t3, t4, Met.child hxm hev (Or.inl rfl) t5 t6⟩
    · obtain ⟨t1, t2, t3, t4, c, t5, t6, rfl⟩ := w2 n hn
      exact ⟨t1, t2, t3, t4, Met.child hxm hev (Or.inr rfl) t5 t6⟩
  have hmapid : ((n1 ++ n2).map (store a.useRuntimeDb)).map (hid hash) = (n1 ++ n2).map (hid hash) := by
    rw [List.map_map]
    apply List.map_congr_left
    intro n hn
    exact hid_store hash (hnews n hn).1.node _
  rw [h.db] at hrep hdb
  refine ⟨ps', l ++ (n1 ++ n2).map (store a.useRuntimeDb), hrun, ?_, ?_, hmono, ?_, ?_, ?_, ?_⟩
  · refine ⟨by rw [hq']; exact hrep, by rw [hq']; exact hdb, ?_, ?_, ?_, ?_, ?_, ?_, hmono _ h.rootMem, ?_, ?_⟩
    · intro hu k hk
      rw [hq'] at hk
      rcases hrows k hk with hk | hk
      · exact hmono k (h.rows hu k hk)
      · obtain ⟨n, hn, rfl⟩ := List.mem_map.1 hk
        exact hkids _ (hnewmem n hn)
    · intro y hy
      rcases List.mem_append.1 hy with hy | hy
      · obtain ⟨b1, b2, b3, b4, b5⟩ := h.items y (by simp [hy])
        exact ⟨b1, b2, b3, b4, hsame _ _ (hlpid y hy) b5⟩
      · obtain ⟨n, hn, rfl⟩ := List.mem_map.1 hy
        obtain ⟨b1, b2, b3, b4, b5⟩ := hnews n hn
        refine ⟨b1.store _, b5, fun hu => (b2 (hxp hu)).store _, ?_, ?_⟩
        · rw [id_store, hid_store hash b1.node, b3]
        · rw [hid_store hash b1.node, hget _ (hnewpid n hn), if_pos (List.mem_map.2 ⟨n, hn, rfl⟩)]
    · rw [List.map_append, hmapid, List.nodup_append]
      refine ⟨hids.2, ?_, ?_⟩
      · rw [List.map_append, List.nodup_append]
        refine ⟨nodup_of_length_le_one (by simpa using s1.small),
          nodup_of_length_le_one (by simpa using s2.small), ?_⟩
        intro p hp q hq e
        obtain ⟨n, hn, rfl⟩ := List.mem_map.1 hq
        exact (hold2 n hn).1 (e ▸ hp)
      · intro p hp q hq e
        obtain ⟨y, hy, rfl⟩ := List.mem_map.1 hp
        obtain ⟨n, hn, rfl⟩ := List.mem_map.1 hq
        have h1 := hnewnone n hn
        rw [← e, (h.items y (by simp [hy])).2.2.2.2] at h1
        simp at h1
    · intro k ks hk
      by_cases e : k = pid
      · right
        refine ⟨x, hxt, hxm, by rw [hpid, e], ?_, ?_, ?_⟩
        · rw [e, hgetpid] at hk
          exact ⟨lft, rgt, hev, by simpa using hk.symm⟩
        · rw [e, hgetpid] at hk
          have : kidsOf hash a im lft ++ kidsOf hash a im rgt = ks := by simpa using hk
          rw [← this]; exact hkids
        · rintro ⟨l'', r'', hev', ht⟩
          rw [hev] at hev'
          cases pure_inj_some hev'
          rw [hsat']
          rcases ht with ht | ht
          · exact u3 (v4 ht)
          · exact u4 ht
      · rw [hget k e] at hk
        split at hk
        · next hm =>
          left
          rw [← hmapid] at hm
          obtain ⟨y, hy, e2⟩ := List.mem_map.1 hm
          exact ⟨y, List.mem_append_right _ hy, e2⟩
        · rcases h.done k ks hk with ⟨y, hy, e2⟩ | ⟨s, b1, b2, b3, b4, b5, b6⟩
          · left
            rcases List.mem_cons.1 hy with rfl | hy
            · exact absurd (e2.symm.trans hpid) e
            · exact ⟨y, List.mem_append_left _ hy, e2⟩
          · right
            refine ⟨s, b1, b2, b3, b4, fun k hk => hmono k (b5 k hk), fun ht => ?_⟩
            rw [hsat']; exact u3 (v3 (b6 ht))
    · rw [hsat', hsol']; exact u1
    · rw [hsol']; exact u2
    · have hedge : ∀ p q, Edge ps.nodesChildren p q → Edge ps'.nodesChildren p q := by
        rintro p q ⟨ks, hp, hq⟩
        have e : p ≠ pid := by
          rintro rfl
          rw [hxn] at hp
          have : ks = [] := by simpa using hp.symm
          rw [this] at hq; simp at hq
        exact ⟨ks, hsame p ks e hp, hq⟩
      have hreach : ∀ k ∈ ps.nodesChildren.keys, Reach ps'.nodesChildren root k := by
        intro k hk
        exact Relation.ReflTransGen.mono hedge _ _ (h.reach k hk)
      have hpidk : pid ∈ ps.nodesChildren.keys := Dict.mem_keys_of_get? hxn
      intro k hk
      by_cases e : k = pid
      · rw [e]; exact hreach pid hpidk
      · rw [Dict.mem_keys_iff, hget k e] at hk
        split at hk
        · next hm =>
          obtain ⟨n, hn, rfl⟩ := List.mem_map.1 hm
          exact (hreach pid hpidk).tail ⟨_, hgetpid, hnewmem n hn⟩
        · exact hreach k ((Dict.mem_keys_iff _ _).2 hk)
    · rw [hnc]; exact k6 (g6 h.nd)
  · rw [weight_append]
    have hle : ∀ m : List (SetObj H), (∀ n ∈ m, size (raws n.clauses) < size (raws x.clauses)) →
        m.length ≤ 2 → weight (m.map (store a.useRuntimeDb)) < 3 ^ size (raws x.clauses) := by
      intro m hm hm2
      obtain ⟨N, hN⟩ : ∃ N, size (raws x.clauses) = N := ⟨_, rfl⟩
      rw [hN] at hm ⊢
      match m, hm2 with
      | [], _ => simp [weight]
      | [p], _ =>
        have := hm p (by simp)
        simp only [weight, List.map_cons, List.map_nil, List.sum_cons, List.sum_nil, raws_store]
        exact Nat.pow_lt_pow_right (by norm_num) this
      | [p, q], _ =>
        have h1 := hm p (by simp)
        have h2 := hm q (by simp)
        simp only [weight, List.map_cons, List.map_nil, List.sum_cons, List.sum_nil, raws_store]
        obtain ⟨N, rfl⟩ : ∃ M, N = M + 1 := ⟨N - 1, by omega⟩
        have e1 : 3 ^ size (raws p.clauses) ≤ 3 ^ N := Nat.pow_le_pow_right (by norm_num) (by omega)
        have e2 : 3 ^ size (raws q.clauses) ≤ 3 ^ N := Nat.pow_le_pow_right (by norm_num) (by omega)
        have e3 : 0 < 3 ^ N := Nat.pow_pos (by norm_num)
        rw [Nat.pow_succ]; omega
      | _ :: _ :: _ :: _, hm2 => simp at hm2
    have hw := hle (n1 ++ n2) (fun n hn => (hnews n hn).2.2.2.1) (by
      have := s1.small; have := s2.small; simp; omega)
    have : weight (x :: l) = 3 ^ size (raws x.clauses) + weight l := by simp [weight]
    omega
  · intro hs; rw [hsat']; exact u3 (v3 hs)
  · have := s1.small; have := s2.small; simp; omega
  · have c1 : ps1.uniques + ps.nodesChildren.length = ps.uniques + ps1.nodesChildren.length :=
      s1.count hash a im hxn
    have c2 := s2.count hash a im g1
    have : ps'.uniques = ps2.uniques := by rw [hps']
    rw [this, hnc]; omega
  · refine ⟨(n1 ++ n2).map (hid hash), by rw [List.map_append, hmapid], ?_, ?_⟩
    · intro k hk
      obtain ⟨n, hn, rfl⟩ := List.mem_map.1 hk
      exact (Dict.get?_eq_none_iff _ _).1 (hnewnone n hn)
    · intro k hk
      by_cases e : k = pid
      · exact Or.inl (e ▸ Dict.mem_keys_of_get? hxn)
      · rw [Dict.mem_keys_iff, hget k e] at hk
        split at hk
        · next hm => exact Or.inr hm
        · exact Or.inl ((Dict.mem_keys_iff _ _).2 hk)

theorem Inv.step (hg : a.useGlobalDb = false) (seen : List H) {R : Cnf} (hR : Proper R) {s0 : SetObj H}
    {root : H} {ps : PS H} {x : SetObj H} {l : List (SetObj H)} (h : Inv hash a im R s0 root ps (x :: l)) :
    ∃ ps' l', expand hash a im seen ps = pure ps' ∧ Inv hash a im R s0 root ps' l' ∧
      weight l' < weight (x :: l) ∧ (∀ k ∈ ps.nodesChildren.keys, k ∈ ps'.nodesChildren.keys) ∧
      (ps.isSat = true → ps'.isSat = true) ∧ l'.length ≤ l.length + 2 ∧
      ps'.uniques + ps.nodesChildren.length = ps.uniques + ps'.nodesChildren.length := by
  obtain ⟨ps', l', h1, h2, h3, h4, h5, h6, h7, _⟩ := h.step' hash a im hg seen hR
  exact ⟨ps', l', h1, h2, h3, h4, h5, h6, h7⟩

end NDP
