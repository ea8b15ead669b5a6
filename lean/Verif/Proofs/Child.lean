import Verif.Proofs.Queue
import Verif.Model.Solver
/- What handling one child, and expanding one node, does to the state of a process (no global DB). -/
namespace NDP
open Spec SetObj
variable {H : Type} [DecidableEq H] (hash : Str → H) (a : Args) (im : Mode)

/-- Identity of a node: the hash of its body. -/
def hid (s : SetObj H) : H := hash (bodyStr s.clauses)

theorem hid_congr {s t : SetObj H} (hs : ∀ c ∈ s.clauses, c.raw ≠ []) (ht : ∀ c ∈ t.clauses, c.raw ≠ [])
    (h : raws s.clauses = raws t.clauses) : hid hash s = hid hash t := by
  unfold hid; rw [bodyStr_congr hs ht h]

theorem hid_store {x : SetObj H} (h : Node x) (db : Bool) : hid hash (store db x) = hid hash x :=
  hid_congr hash (node_store h db).cne h.cne (raws_store db x)

/-- The normalised child as it is put in the graph and on the queue. -/
def childItem (c : SetObj H) : SetObj H :=
  { c with id := some (hid hash c), computedHash := some (hid hash c), status := some .unique }

/-- Edges contributed by one child: none if it is T or F, else the identity of its normal form. -/
def kidsOf (ch : SetObj H) : List H :=
  match ch.value with
  | some _ => []
  | none => match ch.toLo im a.sortBySize a.thief with
    | some (.ok c) => [hid hash c]
    | _ => []

/-- Effect of handling one child of the node `pid`; the last argument lists the nodes to be queued. -/
inductive ChildStep (pid : H) : PS H → SetObj H → PS H → List (SetObj H) → Prop
  | const (ps : PS H) (ch : SetObj H) (v : Bool) (hv : ch.value = some v) :
      ChildStep pid ps ch { ps with
        solution := if v = true ∧ ps.solution = none then some (sortItems ch.evaluatedVars) else ps.solution,
        isSat := ps.isSat || v } []
  | uniq (ps : PS H) (ch c : SetObj H) (ks : List H) (hv : ch.value = none)
      (hlo : ch.toLo im a.sortBySize a.thief = pure c)
      (hnew : ps.nodesChildren.get? (hid hash c) = none) (hpid : ps.nodesChildren.get? pid = some ks) :
      ChildStep pid ps ch { ps with
        uniques := ps.uniques + 1,
        nodesChildren := (ps.nodesChildren.set (hid hash c) []).set pid (ks ++ [hid hash c]) }
        [childItem hash c]
  | red (ps : PS H) (ch c : SetObj H) (ks : List H) (rids : List H) (hv : ch.value = none)
      (hlo : ch.toLo im a.sortBySize a.thief = pure c)
      (hold : (ps.nodesChildren.get? (hid hash c)).isSome) (hpid : ps.nodesChildren.get? pid = some ks) :
      ChildStep pid ps ch { ps with
        redundantHits := ps.redundantHits + 1, redundantIds := rids,
        nodesChildren := ps.nodesChildren.set pid (ks ++ [hid hash c]) } []

theorem toStr_value {x : SetObj H} {v : Bool} (h : x.value = some v) :
    x.toStr = pure [if v then 'T' else 'F'] := by
  unfold toStr; rw [h]; cases v <;> rfl

/-- The digest stored for a child: that of `T`, of `F`, or of its normal form. -/
def digestOf (ch : SetObj H) : H :=
  match ch.value with
  | some v => hash [if v then 'T' else 'F']
  | none => match ch.toLo im a.sortBySize a.thief with
    | some (.ok c) => hid hash c
    | _ => hash []

/-- Handling a child succeeds and has the effect described by `ChildStep`. -/
theorem processChild_full {R : Cnf} (hR : Proper R) {x ch : SetObj H} {b : Bool} (hx : Tracks R x)
    (hch : IsChild x b ch) {pid : H} {ks : List H} {ps : PS H} (hpid : ps.nodesChildren.get? pid = some ks) :
    ∃ ps' ch' news, processChild hash a im false (some pid) ps ch = pure (ps', ch') ∧
      ChildStep hash a im pid ps ch ps' news ∧ ch'.computedHash = some (digestOf hash a im ch) ∧
      ch'.value = ch.value ∧
      ((news = [] ∧ ch'.status ≠ some .unique) ∨ (news = [ch'] ∧ ch'.status = some .unique)) ∧
      (ch.value = none → ∃ c, ch.toLo im a.sortBySize a.thief = pure c ∧
        ch' = { c with id := some (hid hash c), computedHash := some (hid hash c), status := ch'.status }) := by
  match hv : ch.value with
  | some v =>
    obtain ⟨t, ht, hdig⟩ : ∃ t, ch.toStr = pure t ∧ digestOf hash a im ch = hash t :=
      ⟨_, toStr_value hv, by unfold digestOf; rw [hv]⟩
    have hh := hch.hash
    have hi := hch.id
    have hrun : processChild hash a im false (some pid) ps ch = pure
        ({ ps with
          solution := if v = true ∧ ps.solution = none then some (sortItems ch.evaluatedVars) else ps.solution,
          isSat := ps.isSat || v }, { ch with status := some Status.evaluated, computedHash := some (hash t) }) := by
      clear hch hdig
      obtain ⟨cl, val, i, chh, fnm, ev, ov, hov, st⟩ := ch
      simp only at hv hh hi
      subst hv hh hi
      unfold processChild
      rw [ht]
      have ht2 :
          ({ clauses := cl, value := some v, finalNamesMap := fnm, evaluatedVars := ev, originalValues := ov, highestOccurringVar := hov, status := some Status.evaluated } : SetObj H).toStr = pure t := by
        rw [← ht]; rfl
      simp only [M.pure_bind, getHash, ht2]
      cases v
      · simp
      · by_cases hs : ps.solution = none <;> simp [hs]
    refine ⟨_, _, [], hrun, ChildStep.const ps ch v hv, by rw [hdig], hv, Or.inl ⟨rfl, by simp⟩, ?_⟩
    intro e
    simp at e
  | none =>
    have hpre := hch.pre hx hv
    obtain ⟨c, hlo, htr, _⟩ := toLo_tracks hR im a.sortBySize a.thief hpre
    have hbody : c.toStr = pure (bodyStr c.clauses) := toStr_ok htr.node.value htr.node.ne
    have hgh : c.getHash hash true = pure (hid hash c, { c with computedHash := some (hid hash c) }) := by
      unfold getHash
      rw [hbody]
      cases c.computedHash <;> rfl
    have ht0 : ch.toStr = pure (bodyStr ch.clauses) := toStr_ok hv hpre.ne
    have hdig : digestOf hash a im ch = hid hash c := by unfold digestOf; rw [hv, hlo]; rfl
    by_cases hin : (ps.nodesChildren.get? (hid hash c)).isSome
    · have hrun : processChild hash a im false (some pid) ps ch = pure
        ({ ps with
            redundantHits := ps.redundantHits + 1,
            redundantIds := if hid hash c ∈ ps.redundantIds then ps.redundantIds
              else ps.redundantIds ++ [hid hash c],
            nodesChildren := ps.nodesChildren.set pid (ks ++ [hid hash c]) },
          { c with id := some (hid hash c), computedHash := some (hid hash c), status := some .redundant }) := by
        unfold processChild
        rw [ht0]
        simp only [M.pure_bind, hv, Bool.not_false, if_true, hlo, hgh]
        simp only [getHash, M.pure_bind, hin, if_true, toStr, htr.node.value]
        have : c.clauses.length ≠ 0 := by simpa using htr.node.ne
        simp only [this, if_false, M.pure_bind, appendChild, hpid]
      exact ⟨_, _, [], hrun, ChildStep.red ps ch c ks _ hv hlo hin hpid, by rw [hdig],
        by rw [htr.node.value], Or.inl ⟨rfl, by simp⟩, fun _ => ⟨c, hlo, rfl⟩⟩
    · have hnone : ps.nodesChildren.get? (hid hash c) = none := by simpa using hin
      have hne : hid hash c ≠ pid := by rintro e; rw [e, hpid] at hnone; simp at hnone
      have hrun : processChild hash a im false (some pid) ps ch = pure
        ({ ps with
            uniques := ps.uniques + 1,
            nodesChildren := (ps.nodesChildren.set (hid hash c) []).set pid (ks ++ [hid hash c]) },
          childItem hash c) := by
        unfold processChild
        rw [ht0]
        simp only [M.pure_bind, hv, Bool.not_false, if_true, hlo, hgh]
        simp only [getHash, M.pure_bind, hnone, toStr, htr.node.value]
        have : c.clauses.length ≠ 0 := by simpa using htr.node.ne
        simp only [this, if_false, M.pure_bind, appendChild, Option.isSome_none, Bool.false_eq_true]
        rw [Dict.get?_set_ne _ _ hne, hpid]
        simp only [M.pure_bind, childItem, htr.node.value]
      exact ⟨_, _, [childItem hash c], hrun, ChildStep.uniq ps ch c ks hv hlo hnone hpid, by rw [hdig]; rfl,
        by unfold childItem; rw [htr.node.value], Or.inr ⟨rfl, rfl⟩, fun _ => ⟨c, hlo, rfl⟩⟩

theorem processChild_ok {R : Cnf} (hR : Proper R) {x ch : SetObj H} {b : Bool} (hx : Tracks R x)
    (hch : IsChild x b ch) {pid : H} {ks : List H} {ps : PS H} (hpid : ps.nodesChildren.get? pid = some ks) :
    ∃ ps' ch' news, processChild hash a im false (some pid) ps ch = pure (ps', ch') ∧
      ChildStep hash a im pid ps ch ps' news ∧ ch'.computedHash = some (digestOf hash a im ch) ∧
      ch'.value = ch.value ∧
      ((news = [] ∧ ch'.status ≠ some .unique) ∨ (news = [ch'] ∧ ch'.status = some .unique)) := by
  obtain ⟨ps', ch', news, h1, h2, h3, h4, h5, _⟩ := processChild_full hash a im hR hx hch hpid
  exact ⟨ps', ch', news, h1, h2, h3, h4, h5⟩

/-- The graph after one child step: the child's edge is appended, a new child gets an empty entry. -/
theorem ChildStep.graph {pid : H} {ps ps' : PS H} {ch : SetObj H} {news : List (SetObj H)}
    (h : ChildStep hash a im pid ps ch ps' news) {ks : List H} (hpid : ps.nodesChildren.get? pid = some ks) :
    ps'.nodesChildren.get? pid = some (ks ++ kidsOf hash a im ch) ∧
    (∀ k, k ≠ pid → ps'.nodesChildren.get? k =
      if k ∈ news.map (hid hash) then some [] else ps.nodesChildren.get? k) ∧
    (∀ k ∈ kidsOf hash a im ch, (ps'.nodesChildren.get? k).isSome) ∧
    (∀ n ∈ news, ps.nodesChildren.get? (hid hash n) = none) ∧
    (∀ n ∈ news, hid hash n ∈ kidsOf hash a im ch) ∧
    (ps.nodesChildren.keys.Nodup → ps'.nodesChildren.keys.Nodup) := by
  cases h with
  | const v hv =>
    have hk : kidsOf hash a im ch = [] := by unfold kidsOf; rw [hv]
    rw [hk]
    refine ⟨by simpa using hpid, by simp, by simp, by simp, by simp, fun h => h⟩
  | uniq c ks' hv hlo hnew hpid' =>
    have hk : kidsOf hash a im ch = [hid hash c] := by
      unfold kidsOf; rw [hv, hlo]; rfl
    have hne : hid hash c ≠ pid := by rintro e; rw [e, hpid] at hnew; simp at hnew
    have hi : hid hash (childItem hash c) = hid hash c := rfl
    rw [hpid] at hpid'
    cases hpid'
    rw [hk]
    refine ⟨?_, ?_, ?_, ?_, ?_, ?_⟩
    · rw [Dict.get?_set]; simp
    · intro k hk
      rw [Dict.get?_set_ne _ _ (Ne.symm hk), Dict.get?_set]
      simp only [List.map_cons, List.map_nil, List.mem_singleton, hi, eq_comm]
    · intro k hk
      rw [List.mem_singleton] at hk
      subst hk
      rw [Dict.get?_set_ne _ _ (Ne.symm hne), Dict.get?_set]; simp
    · intro n hn
      rw [List.mem_singleton] at hn; subst hn; exact hnew
    · intro n hn
      rw [List.mem_singleton] at hn; subst hn; simp [hi]
    · intro hn; exact Dict.nodup_keys_set _ _ _ (Dict.nodup_keys_set _ _ _ hn)
  | red c ks' rids hv hlo hold hpid' =>
    have hk : kidsOf hash a im ch = [hid hash c] := by
      unfold kidsOf; rw [hv, hlo]; rfl
    rw [hpid] at hpid'
    cases hpid'
    rw [hk]
    refine ⟨?_, ?_, ?_, by simp, by simp, ?_⟩
    · rw [Dict.get?_set]; simp
    · intro k hk
      rw [Dict.get?_set_ne _ _ (Ne.symm hk)]; simp
    · intro k hk
      rw [List.mem_singleton] at hk
      subst hk
      rw [Dict.get?_set]; split
      · simp
      · exact hold
    · intro hn; exact Dict.nodup_keys_set _ _ _ hn

/-- The rest of the state is untouched. -/
theorem ChildStep.frame {pid : H} {ps ps' : PS H} {ch : SetObj H} {news : List (SetObj H)}
    (h : ChildStep hash a im pid ps ch ps' news) : ps'.queue = ps.queue ∧ ps'.gdb = ps.gdb ∧
      ps'.leaves = ps.leaves ∧ ps'.foundInGdb = ps.foundInGdb := by
  cases h <;> exact ⟨rfl, rfl, rfl, rfl⟩

theorem numOfVars_ok {s : SetObj H} (h : Node s) : ∃ n, numOfVars s = pure n := by
  unfold numOfVars
  cases hl : s.clauses.getLast? with
  | none => exact ⟨_, rfl⟩
  | some c =>
    have hc : c ∈ s.clauses := List.mem_of_getLast? hl
    simp only
    cases hr : c.raw.getLast? with
    | none => rw [List.getLast?_eq_none_iff] at hr; exact absurd hr (h.cne c hc)
    | some l => exact ⟨_, rfl⟩

theorem save_ok (hg : a.useGlobalDb = false) (seen : List H) (g : Gdb H) {x : SetObj H} (h : Node x) (h1 h2 : H) :
    saveParentChildren hash a seen g x h1 h2 = pure (.success, g) := by
  have hb : x.toStr = pure (bodyStr x.clauses) := toStr_ok h.value h.ne
  have hgh : ∃ k ch, x.getHash hash false = pure (k, { x with computedHash := ch }) := by
    unfold getHash
    cases hc : x.computedHash with
    | none => rw [hb]; exact ⟨_, _, rfl⟩
    | some k => exact ⟨k, some k, by simp [← hc]⟩
  obtain ⟨k, ch, hgh⟩ := hgh
  obtain ⟨n, hn⟩ := numOfVars_ok h
  have hn2 : numOfVars ({ x with computedHash := ch } : SetObj H) = pure n := by rw [← hn]; rfl
  unfold saveParentChildren
  rw [hgh]
  simp only [M.pure_bind, hn2, hg, Bool.false_and, Bool.false_eq_true, if_false]

theorem enqueue_ok {q : Queue H} {l : List (SetObj H)} (h : Rep q l) {ch : SetObj H} {news : List (SetObj H)}
    (hn : (news = [] ∧ ch.status ≠ some .unique) ∨ (news = [ch] ∧ ch.status = some .unique))
    (hs : ∀ n ∈ news, Storable n ∧ (q.useDb = true → EvPos n) ∧ n.id = some (hid hash n) ∧
      (q.useDb = true → hid hash n ∉ q.table.rows.keys)) :
    ∃ q', enqueueUnique q ch = pure q' ∧ Rep q' (l ++ news.map (store q.useDb)) ∧ q'.useDb = q.useDb ∧
      ∀ k ∈ q'.table.rows.keys, k ∈ news.map (hid hash) ∨ k ∈ q.table.rows.keys := by
  unfold enqueueUnique
  rcases hn with ⟨rfl, hst⟩ | ⟨rfl, hst⟩
  · rw [if_neg hst]
    exact ⟨q, rfl, by simpa using h, rfl, fun k hk => Or.inr hk⟩
  · rw [if_pos hst]
    obtain ⟨a1, a2, a3, a4⟩ := hs ch (by simp)
    obtain ⟨q', b1, b2, b3, b4⟩ := h.insert a3 a1 a2 a4
    exact ⟨q', b1, by simpa using b2, b3, fun k hk => by simpa using b4 k hk⟩

/-- New nodes are tracked and carry their identity. -/
theorem ChildStep.news {R : Cnf} (hR : Proper R) {x ch : SetObj H} {b : Bool} (hx : Tracks R x)
    (hch : IsChild x b ch) {pid : H} {ps ps' : PS H} {news : List (SetObj H)}
    (h : ChildStep hash a im pid ps ch ps' news) :
    ∀ n ∈ news, Tracks R n ∧ (EvPos x → EvPos n) ∧ n.id = some (hid hash n) ∧
      size (raws n.clauses) < size (raws x.clauses) ∧
      ∃ c, ch.value = none ∧ ch.toLo im a.sortBySize a.thief = pure c ∧ n = childItem hash c := by
  cases h with
  | const v hv => simp
  | red => simp
  | uniq c ks hv hlo hnew hpid =>
    intro n hn
    rw [List.mem_singleton] at hn
    subst hn
    obtain ⟨c', hlo', htr, hsz, hev, _⟩ := toLo_tracks hR im a.sortBySize a.thief (hch.pre hx hv)
    rw [hlo] at hlo'
    have : c = c' := by simpa using hlo'
    subst this
    refine ⟨?_, ?_, rfl, ?_, c, hv, hlo, rfl⟩
    · exact ⟨⟨htr.node.ne, htr.node.cne, htr.node.asc, htr.node.vars, htr.node.names, htr.node.value⟩,
        htr.pos, htr.inj, htr.same, htr.evnd, htr.nvars, htr.ovnd, htr.evp⟩
    · intro hp k hk
      have hk : k ∈ c.evaluatedVars.keys := hk
      rw [hev, hch.ev, Dict.mem_keys_set] at hk
      rcases hk with rfl | hk
      · omega
      · exact hp k hk
    · have := hch.size_lt hx
      show size (raws c.clauses) < _
      omega

/-- Expanding the first node of the queue. -/
theorem expand_ok (hg : a.useGlobalDb = false) (seen : List H) {R : Cnf} (hR : Proper R) {ps : PS H}
    {x : SetObj H} {l : List (SetObj H)} (hrep : Rep ps.queue (x :: l)) (hx : Tracks R x)
    (hpos : ps.queue.useDb = true → EvPos x)
    {pid : H} (hid' : x.id = some pid) {ks : List H} (hpid : ps.nodesChildren.get? pid = some ks)
    (hrows : ps.queue.useDb = true → ∀ k ∈ ps.queue.table.rows.keys, k ∈ ps.nodesChildren.keys) :
    ∃ ps' ps1 ps2 lft rgt n1 n2 q0 q, expand hash a im seen ps = pure ps' ∧
      x.evaluate = pure (some (lft, rgt)) ∧ IsChild x true lft ∧ IsChild x false rgt ∧
      ChildStep hash a im pid { ps with queue := q0 } lft ps1 n1 ∧ ChildStep hash a im pid ps1 rgt ps2 n2 ∧
      ps' = { ps2 with queue := q, leaves := ps'.leaves } ∧
      Rep q (l ++ (n1 ++ n2).map (store ps.queue.useDb)) ∧ q.useDb = ps.queue.useDb ∧
      (∀ k ∈ q.table.rows.keys, k ∈ ps.queue.table.rows.keys ∨ k ∈ (n1 ++ n2).map (hid hash)) := by
  obtain ⟨q0, hpop, hrep0, hdb0, htab0⟩ := hrep.pop
  obtain ⟨lft, rgt, hev, hl, hr⟩ := evaluate_ok hx.node
  obtain ⟨ps1, l', n1, p1, s1, c1, v1, e1⟩ :=
    processChild_ok hash a im hR hx hl (ps := { ps with queue := q0 }) hpid
  obtain ⟨g1, g2, g3, g4, g5, g6⟩ := s1.graph hash a im (ps := { ps with queue := q0 }) hpid
  obtain ⟨ps2, r', n2, p2, s2, c2, v2, e2⟩ := processChild_ok hash a im hR hx hr g1
  obtain ⟨k1, k2, k3, k4, k5, k6⟩ := s2.graph hash a im g1
  obtain ⟨f1, f2, f3, f4⟩ := s1.frame hash a im
  obtain ⟨f1', f2', f3', f4'⟩ := s2.frame hash a im
  have gh1 : l'.getHash hash false = pure (digestOf hash a im lft, l') := by unfold getHash; rw [c1]
  have gh2 : r'.getHash hash false = pure (digestOf hash a im rgt, r') := by unfold getHash; rw [c2]
  have w1 := s1.news hash a im hR hx hl
  have w2 := s2.news hash a im hR hx hr
  have hq2 : ps2.queue = q0 := by rw [f1', f1]
  have hnr : ∀ k, ps.nodesChildren.get? k = none → ps.queue.useDb = true → k ∉ q0.table.rows.keys := by
    intro k hk hdb hm
    rw [htab0] at hm
    have := hrows hdb k hm
    rw [Dict.mem_keys_iff, hk] at this
    simp at this
  obtain ⟨q1, i1, i2, i3, i4⟩ := enqueue_ok hash hrep0 e1 (by
    intro n hn
    obtain ⟨t1, t2, t3, _⟩ := w1 n hn
    refine ⟨t1.storable, fun h => t2 (hpos (hdb0 ▸ h)), t3, fun h => hnr _ (g4 n hn) (hdb0 ▸ h)⟩)
  have hpid2 : ∀ n ∈ n2, hid hash n ≠ pid := by
    intro n hn e
    have := k4 n hn
    rw [e, g1] at this; simp at this
  have hold2 : ∀ n ∈ n2, hid hash n ∉ n1.map (hid hash) ∧ ps.nodesChildren.get? (hid hash n) = none := by
    intro n hn
    have h0 := k4 n hn
    rw [g2 _ (hpid2 n hn)] at h0
    split at h0
    · simp at h0
    · next hh => exact ⟨hh, h0⟩
  obtain ⟨q2, j1, j2, j3, j4⟩ := enqueue_ok hash i2 e2 (by
    intro n hn
    obtain ⟨t1, t2, t3, _⟩ := w2 n hn
    refine ⟨t1.storable, fun h => t2 (hpos (by rw [← hdb0, ← i3]; exact h)), t3, fun h hm => ?_⟩
    rcases i4 _ hm with hm | hm
    · exact (hold2 n hn).1 hm
    · exact hnr _ (hold2 n hn).2 (by rw [← hdb0, ← i3]; exact h) hm)
  have hrun : ∃ lv, expand hash a im seen ps = pure { ps2 with queue := q2, leaves := lv } := by
    unfold expand
    rw [hpop]
    simp only [M.pure_bind, getChildren, hg, Bool.false_eq_true, if_false, hev]
    rw [hid', p1]
    simp only [M.pure_bind]
    rw [p2]
    simp only [M.pure_bind, gh1, gh2]
    rw [save_ok hash a hg seen _ hx.node]
    simp only [M.pure_bind, if_true, hq2, i1, j1]
    split
    · exact ⟨_, rfl⟩
    · exact ⟨_, rfl⟩
  obtain ⟨lv, hrun⟩ := hrun
  refine ⟨_, ps1, ps2, lft, rgt, n1, n2, q0, q2, hrun, hev, hl, hr, s1, s2, rfl, ?_, ?_, ?_⟩
  · rw [List.map_append, ← List.append_assoc]
    rwa [i3, hdb0] at j2
  · rw [j3, i3, hdb0]
  · intro k hk
    rw [List.map_append, List.mem_append]
    rcases j4 k hk with h | h
    · exact Or.inr (Or.inr h)
    · rcases i4 k h with h | h
      · exact Or.inr (Or.inl h)
      · exact Or.inl (htab0 ▸ h)

end NDP
