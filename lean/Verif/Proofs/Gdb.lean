import Verif.Model.Shared
import Verif.Proofs.Solve
/- The search with the global table. -/
namespace NDP
open Spec SetObj
variable {H : Type} [DecidableEq H] (hash : Str → H) (a : Args) (im : Mode)

theorem getHash_node {x : SetObj H} (h : Node x) (hc : x.computedHash = some (hid hash x) ∨ x.computedHash = none) :
    x.getHash hash false = pure (hid hash x, { x with computedHash := some (hid hash x) }) := by
  have hb : x.toStr = pure (bodyStr x.clauses) := toStr_ok h.value h.ne
  unfold getHash
  rcases hc with hc | hc
  · rw [hc]; simp only; rw [← hc]
  · rw [hc, hb]; rfl

/-- The row written for the node `x` with children `lft`, `rgt`. -/
def rowOf (x lft rgt : SetObj H) (nv : Nat) : Row H :=
  { body := bodyStr x.clauses, cid1 := digestOf hash a im lft, cid2 := digestOf hash a im rgt,
    numClauses := x.clauses.length, numVars := nv }

/-- The process tries to insert a row for the node with digest `h`. -/
def wants (seen : List H) (gq : Gdb H) (h : H) : Bool := a.useGlobalDb && !isSetInGdb a seen gq h

theorem saveAt_ok (seen : List H) (gq gw : Gdb H) {x : SetObj H} (h : Node x)
    (hc : x.computedHash = some (hid hash x) ∨ x.computedHash = none) (h1 h2 : H) {nv : Nat} (hnv : numOfVars x = pure nv) :
    saveAt hash a seen gq gw x h1 h2 = pure (if wants a seen gq (hid hash x) then
      gw.insertRow (hid hash x) { body := bodyStr x.clauses, cid1 := h1, cid2 := h2, numClauses := x.clauses.length, numVars := nv }
      else (.success, gw)) := by
  have hb : ({ x with computedHash := some (hid hash x) } : SetObj H).toStr = pure (bodyStr x.clauses) :=
    toStr_ok h.value h.ne
  have hn2 : numOfVars ({ x with computedHash := some (hid hash x) } : SetObj H) = pure nv := by rw [← hnv]; rfl
  unfold saveAt
  rw [getHash_node hash h hc]
  simp only [M.pure_bind, hn2, hb]
  unfold wants
  split <;> rfl

/-- Expanding the first node of the queue, when the table (as read) does not have it. -/
theorem expandAt_ok (seen : List H) (gr gq gw : Gdb H) {R : Cnf} (hR : Proper R) {ps : PS H}
    {x : SetObj H} {l : List (SetObj H)} (hrep : Rep ps.queue (x :: l)) (hx : Tracks R x)
    (hpos : ps.queue.useDb = true → EvPos x)
    {pid : H} (hid' : x.id = some pid) {ks : List H} (hpid : ps.nodesChildren.get? pid = some ks)
    (hrows : ps.queue.useDb = true → ∀ k ∈ ps.queue.table.rows.keys, k ∈ ps.nodesChildren.keys)
    (hc : x.computedHash = some (hid hash x) ∨ x.computedHash = none)
    (hin : a.useGlobalDb = true → isSetInGdb a seen gr (hid hash x) = true → getChildrenFromGdb hash gr (hid hash x) = none) :
    ∃ ps' ps1 ps2 lft rgt n1 n2 q0 q nv, expandAt hash a im seen gr gq gw ps = pure ps' ∧
      x.evaluate = pure (some (lft, rgt)) ∧ IsChild x true lft ∧ IsChild x false rgt ∧
      ChildStep hash a im pid { ps with queue := q0 } lft ps1 n1 ∧ ChildStep hash a im pid ps1 rgt ps2 n2 ∧
      numOfVars x = pure nv ∧
      ps' = { ps2 with
        queue := q, leaves := ps'.leaves,
        gdb := if wants a seen gq (hid hash x) then (gw.insertRow (hid hash x) (rowOf hash a im x lft rgt nv)).2 else gw } ∧
      Rep q (l ++ if (wants a seen gq (hid hash x) && gw.contains (hid hash x)) = true then []
        else (n1 ++ n2).map (store ps.queue.useDb)) ∧ q.useDb = ps.queue.useDb ∧
      (∀ k ∈ q.table.rows.keys, k ∈ ps.queue.table.rows.keys ∨ k ∈ (n1 ++ n2).map (hid hash)) := by
  obtain ⟨q0, hpop, hrep0, hdb0, htab0⟩ := hrep.pop
  obtain ⟨lft, rgt, hev, hl, hr⟩ := evaluate_ok hx.node
  obtain ⟨ps1, l', n1, p1, s1, c1, v1, e1⟩ :=
    processChild_ok hash a im hR hx hl (ps := { ps with queue := q0 }) hpid
  obtain ⟨g1, g2, g3, g4, g5, g6⟩ := s1.graph hash a im (ps := { ps with queue := q0 }) hpid
  obtain ⟨ps2, r', n2, p2, s2, c2, v2, e2⟩ := processChild_ok hash a im hR hx hr g1
  obtain ⟨k1, k2, k3, k4, k5, k6⟩ := s2.graph hash a im g1
  obtain ⟨f1, f2, f3, f4⟩ := s1.frame hash a im
  obtain ⟨f1', f2', f3', f4'⟩ := s2.frame hash a im
  obtain ⟨nv, hnv⟩ := numOfVars_ok hx.node
  have gh1 : l'.getHash hash false = pure (digestOf hash a im lft, l') := by unfold getHash; rw [c1]
  have gh2 : r'.getHash hash false = pure (digestOf hash a im rgt, r') := by unfold getHash; rw [c2]
  have w1 := s1.news hash a im hR hx hl
  have w2 := s2.news hash a im hR hx hr
  have hq2 : ps2.queue = q0 := by rw [f1', f1]
  have hnr : ∀ k, ps.nodesChildren.get? k = none → ps.queue.useDb = true → k ∉ q0.table.rows.keys := by
    intro k hk hdb hm
    rw [htab0] at hm
    have := hrows hdb k hm
    rw [Dict.mem_keys_iff, hk] at this
    simp at this
  obtain ⟨q1, i1, i2, i3, i4⟩ := enqueue_ok hash hrep0 e1 (by
    intro n hn
    obtain ⟨t1, t2, t3, _⟩ := w1 n hn
    refine ⟨t1.storable, fun h => t2 (hpos (hdb0 ▸ h)), t3, fun h => hnr _ (g4 n hn) (hdb0 ▸ h)⟩)
  have hpid2 : ∀ n ∈ n2, hid hash n ≠ pid := by
    intro n hn e
    have := k4 n hn
    rw [e, g1] at this; simp at this
  have hold2 : ∀ n ∈ n2, hid hash n ∉ n1.map (hid hash) ∧ ps.nodesChildren.get? (hid hash n) = none := by
    intro n hn
    have h0 := k4 n hn
    rw [g2 _ (hpid2 n hn)] at h0
    split at h0
    · simp at h0
    · next hh => exact ⟨hh, h0⟩
  obtain ⟨q2, j1, j2, j3, j4⟩ := enqueue_ok hash i2 e2 (by
    intro n hn
    obtain ⟨t1, t2, t3, _⟩ := w2 n hn
    refine ⟨t1.storable, fun h => t2 (hpos (by rw [← hdb0, ← i3]; exact h)), t3, fun h hm => ?_⟩
    rcases i4 _ hm with hm | hm
    · exact (hold2 n hn).1 hm
    · exact hnr _ (hold2 n hn).2 (by rw [← hdb0, ← i3]; exact h) hm)
  have hgc : ∃ x' : SetObj H, getChildren hash a seen gr x = pure (lft, rgt, false, x') ∧
      (x' = x ∨ x' = { x with computedHash := some (hid hash x) }) := by
    unfold getChildren
    by_cases hg : a.useGlobalDb = true
    · rw [if_pos hg, getHash_node hash hx.node hc]
      have hev' : ({ x with computedHash := some (hid hash x) } : SetObj H).evaluate = pure (some (lft, rgt)) := by
        rw [← hev]; rfl
      have hn : (if isSetInGdb a seen gr (hid hash x) = true then getChildrenFromGdb hash gr (hid hash x) else none) = none := by
        split
        · next e => exact hin hg e
        · rfl
      simp only [M.pure_bind, hn, hev']
      exact ⟨_, rfl, Or.inr rfl⟩
    · rw [if_neg hg, hev]
      exact ⟨_, rfl, Or.inl rfl⟩
  obtain ⟨x', hgc, hx'⟩ := hgc
  have hid2 : x'.id = some pid := by rcases hx' with rfl | rfl <;> exact hid'
  have hsave : saveAt hash a seen gq gw x' (digestOf hash a im lft) (digestOf hash a im rgt) =
      pure (if wants a seen gq (hid hash x) then gw.insertRow (hid hash x) (rowOf hash a im x lft rgt nv) else (.success, gw)) := by
    rcases hx' with rfl | rfl
    · exact saveAt_ok hash a seen gq gw hx.node hc _ _ hnv
    · refine saveAt_ok (x := { x with computedHash := some (hid hash x) }) hash a seen gq gw ?_ (Or.inl rfl) _ _ ?_
      · exact { hx.node with }
      · rw [← hnv]; rfl
  have hdup : ∀ r : Row H, (if wants a seen gq (hid hash x) then gw.insertRow (hid hash x) r else (.success, gw)).1 = .success ↔
      ¬ (wants a seen gq (hid hash x) && gw.contains (hid hash x)) = true := by
    intro r
    unfold Gdb.insertRow
    cases wants a seen gq (hid hash x) <;> cases Dict.contains gw (hid hash x) <;> simp
  have hrun : ∃ lv q, expandAt hash a im seen gr gq gw ps = pure { ps2 with
        queue := q, leaves := lv,
        gdb := (if wants a seen gq (hid hash x) then gw.insertRow (hid hash x) (rowOf hash a im x lft rgt nv) else (.success, gw)).2 } ∧
      q = if (wants a seen gq (hid hash x) && gw.contains (hid hash x)) = true then q0 else q2 := by
    unfold expandAt
    rw [hpop]
    simp only [M.pure_bind, hgc, Bool.false_eq_true, if_false]
    rw [hid2, p1]
    simp only [M.pure_bind]
    rw [p2]
    simp only [M.pure_bind, gh1, gh2, hsave]
    by_cases hd : (wants a seen gq (hid hash x) && gw.contains (hid hash x)) = true
    · rw [if_neg (by rw [hdup]; simpa using hd)]
      simp only [M.pure_bind, hd, if_true, ← hq2]
      split
      · exact ⟨_, _, rfl, rfl⟩
      · exact ⟨_, _, rfl, rfl⟩
    · rw [if_pos ((hdup _).2 hd)]
      simp only [M.pure_bind, hq2, i1, j1, hd, if_false, Bool.false_eq_true]
      split
      · exact ⟨_, _, rfl, rfl⟩
      · exact ⟨_, _, rfl, rfl⟩
  obtain ⟨lv, q, hrun, hq⟩ := hrun
  refine ⟨_, ps1, ps2, lft, rgt, n1, n2, q0, q, nv, hrun, hev, hl, hr, s1, s2, hnv, ?_, ?_, ?_, ?_⟩
  · simp only
    congr 1
    split <;> rfl
  · rw [hq]
    split
    · simpa using hrep0
    · rw [List.map_append, ← List.append_assoc]
      rwa [i3, hdb0] at j2
  · rw [hq]
    split
    · exact hdb0
    · rw [j3, i3, hdb0]
  · intro k hk
    rw [List.map_append, List.mem_append]
    rw [hq] at hk
    split at hk
    · exact Or.inl (htab0 ▸ hk)
    · rcases j4 k hk with h | h
      · exact Or.inr (Or.inr h)
      · rcases i4 k h with h | h
        · exact Or.inr (Or.inl h)
        · exact Or.inl (htab0 ▸ h)

end NDP
