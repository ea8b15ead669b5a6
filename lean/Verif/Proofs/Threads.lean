import Verif.Proofs.Run
import Mathlib.Data.List.Perm.Basic
/- The main process with worker processes (no global DB): every schedule of arrivals gives a correct result. -/
namespace NDP
open Spec SetObj
variable {H : Type} [DecidableEq H] (hash : Str → H) (a : Args) (im : Mode)

theorem Met.stored {s0 x : SetObj H} (h : Met hash a im s0 x) : store a.useRuntimeDb x = x := by
  cases h with
  | root => exact store_idem _ _
  | child => exact store_idem _ _

theorem Met.trans {s0 x y : SetObj H} (h : Met hash a im s0 x) (h2 : Met hash a im x y) : Met hash a im s0 y := by
  induction h2 with
  | root => rw [h.stored hash a im]; exact h
  | child _ hev hch hv hlo ih => exact Met.child ih hev hch hv hlo

theorem NoColl.sub {s0 x : SetObj H} (h : NoColl hash a im s0) (hx : Met hash a im s0 x) : NoColl hash a im x :=
  fun s t hs ht => h s t (hx.trans hash a im hs) (hx.trans hash a im ht)

theorem Met.cache {R : Cnf} (hR : Proper R) {s0 x : SetObj H} (h0 : Ready hash a R s0) (h : Met hash a im s0 x) :
    x.computedHash = some (hid hash x) ∨ (a.useRuntimeDb = true ∧ x.computedHash = none) := by
  by_cases hd : a.useRuntimeDb = true
  · right
    refine ⟨hd, ?_⟩
    cases h <;> simp [store, hd, decode]
  · have hf : a.useRuntimeDb = false := by simpa using hd
    left
    cases h with
    | root =>
      rcases h0.cache with h | ⟨h, _⟩
      · simpa [store, hf] using h
      · exact absurd h hd
    | child => simp [store, hf, childItem]; rfl

/-- Every node on the queue can be handed to a worker. -/
theorem Inv.ready {R : Cnf} (hR : Proper R) {s0 : SetObj H} (h0 : Ready hash a R s0) {root : H} {ps : PS H}
    {l : List (SetObj H)} (h : Inv hash a im R s0 root ps l) {x : SetObj H} (hx : x ∈ l) : Ready hash a R x := by
  obtain ⟨h1, h2, h3, h4, _⟩ := h.items x hx
  exact ⟨h1, h4, h3, h2.cache hash a im hR h0⟩

/-! ### popping the nodes -/

theorem popMany_ok : ∀ (l : List (SetObj H)) (q : Queue H), Rep q l →
    ∃ q', popMany l.length q = pure (l, q') ∧ Rep q' [] ∧ q'.useDb = q.useDb := by
  intro l
  induction l with
  | nil => intro q h; exact ⟨q, rfl, h, rfl⟩
  | cons x l ih =>
    intro q h
    obtain ⟨q1, h1, h2, h3, _⟩ := h.pop
    obtain ⟨q2, k1, k2, k3⟩ := ih q1 h2
    refine ⟨q2, ?_, k2, by rw [k3, h3]⟩
    simp only [List.length_cons, popMany, h1, M.pure_bind, k1]

/-! ### the collecting loop -/

/-- What receiving the message of one worker does. -/
def mergeOne (ps : PS H) (t : Thread H) : PS H :=
  match t.msg with
  | some (.done s nc sol) =>
    { ps with nodesChildren := mergeNodes ps.nodesChildren nc, isSat := ps.isSat || s,
              solution := if truthy sol then sol else ps.solution }
  | _ => ps

/-- The worker finishes and reports. -/
def Reports (t : Thread H) : Prop := ∃ s nc sol, t.msg = some (.done s nc sol)

/-- Its report carries a solution. -/
def Solves (t : Thread H) : Prop := ∃ s nc sol, t.msg = some (.done s nc sol) ∧ truthy sol = true

theorem collect_sound {sched : List Bool} : ∀ {st : CollectSt H} {ps' : PS H}, (∀ t ∈ st.threads, Reports t) →
    collect a sched st = pure ps' →
    ∃ ts rest, List.Perm (ts ++ rest) st.threads ∧ ps' = ts.foldl mergeOne st.ps ∧
      (rest = [] ∨ (a.exitUponSolving = true ∧ ∃ t ∈ ts, Solves t)) := by
  induction sched with
  | nil =>
    intro st ps' _ h
    unfold collect at h
    split at h
    · next e =>
      have : st.threads = [] := by simpa using e
      refine ⟨[], [], by simp [this], by simpa using h.symm, Or.inl rfl⟩
    · simp at h
  | cons r rs ih =>
    intro st ps' hrep h
    unfold collect collectStep at h
    by_cases e : st.threads.length = 0
    · rw [if_pos e] at h
      have : st.threads = [] := by simpa using e
      exact ⟨[], [], by simp [this], by simpa using h.symm, Or.inl rfl⟩
    · rw [if_neg e] at h
      simp only at h
      have hlt : st.i % st.threads.length < st.threads.length := Nat.mod_lt _ (by omega)
      obtain ⟨j, hj⟩ : ∃ j, st.i % st.threads.length = j := ⟨_, rfl⟩
      rw [hj] at h hlt
      have hget : st.threads[j]? = some st.threads[j] := List.getElem?_eq_getElem hlt
      rw [hget] at h
      obtain ⟨t, ht⟩ : ∃ t, st.threads[j] = t := ⟨_, rfl⟩
      rw [ht] at h
      have htm : t ∈ st.threads := ht ▸ List.getElem_mem hlt
      obtain ⟨s, nc, sol, hmsg⟩ := hrep t htm
      have hperm : List.Perm (t :: st.threads.eraseIdx j) st.threads := by
        rw [← ht]; exact List.getElem_cons_eraseIdx_perm hlt
      have hsub : ∀ t' ∈ st.threads.eraseIdx j, Reports t' := fun t' ht' => hrep t' (List.mem_of_mem_eraseIdx ht')
      cases r with
      | false =>
        simp only [hmsg, M.pure_bind] at h
        exact ih (st := { st with i := j + 1 }) hrep h
      | true =>
        simp only [hmsg] at h
        by_cases htr : truthy sol = true
        · rw [if_pos htr] at h
          by_cases hex : a.exitUponSolving = true
          · rw [if_pos hex] at h
            refine ⟨[t], st.threads.eraseIdx j, hperm, ?_, Or.inr ⟨hex, t, by simp, s, nc, sol, hmsg, htr⟩⟩
            simp only [List.foldl_cons, List.foldl_nil, mergeOne, hmsg, htr, if_true]
            simpa using h.symm
          · rw [if_neg hex] at h
            obtain ⟨ts, rest, p, q, r⟩ := ih (by exact hsub) h
            refine ⟨t :: ts, rest, (List.Perm.cons t p).trans hperm, ?_, ?_⟩
            · rw [q, List.foldl_cons]
              simp only [mergeOne, hmsg, htr, if_true]
            · rcases r with r | ⟨r, _⟩
              · exact Or.inl r
              · exact absurd r hex
        · rw [if_neg htr] at h
          obtain ⟨ts, rest, p, q, r⟩ := ih (by exact hsub) h
          refine ⟨t :: ts, rest, (List.Perm.cons t p).trans hperm, ?_, ?_⟩
          · rw [q, List.foldl_cons]
            simp only [mergeOne, hmsg, htr]; simp
          · rcases r with r | ⟨r, t', h1, h2⟩
            · exact Or.inl r
            · exact Or.inr ⟨r, t', by simp [h1], h2⟩

/-- Once as many messages have arrived as there are workers, the collecting loop is over. -/
theorem collect_total {sched : List Bool} : ∀ {st : CollectSt H}, (∀ t ∈ st.threads, Reports t) →
    st.threads.length ≤ sched.count true → ∃ ps', collect a sched st = pure ps' := by
  induction sched with
  | nil =>
    intro st _ h
    unfold collect
    have : st.threads.length = 0 := by simpa using h
    rw [if_pos this]; exact ⟨_, rfl⟩
  | cons r rs ih =>
    intro st hrep h
    unfold collect collectStep
    by_cases e : st.threads.length = 0
    · rw [if_pos e]; exact ⟨_, rfl⟩
    · rw [if_neg e]
      simp only
      have hlt : st.i % st.threads.length < st.threads.length := Nat.mod_lt _ (by omega)
      obtain ⟨j, hj⟩ : ∃ j, st.i % st.threads.length = j := ⟨_, rfl⟩
      rw [hj] at hlt ⊢
      have hget : st.threads[j]? = some st.threads[j] := List.getElem?_eq_getElem hlt
      rw [hget]
      obtain ⟨t, ht⟩ : ∃ t, st.threads[j] = t := ⟨_, rfl⟩
      rw [ht]
      have htm : t ∈ st.threads := ht ▸ List.getElem_mem hlt
      obtain ⟨s, nc, sol, hmsg⟩ := hrep t htm
      have hsub : ∀ t' ∈ st.threads.eraseIdx j, Reports t' := fun t' ht' => hrep t' (List.mem_of_mem_eraseIdx ht')
      have hlen := List.length_eraseIdx_of_lt hlt
      cases r with
      | false =>
        simp only [hmsg, M.pure_bind]
        exact ih (st := { st with i := j + 1 }) hrep (by simpa using h)
      | true =>
        have hc : (st.threads.eraseIdx j).length ≤ rs.count true := by
          rw [hlen]
          simp at h
          omega
        simp only [hmsg]
        by_cases htr : truthy sol = true
        · simp only [htr, if_true]
          by_cases hex : a.exitUponSolving = true
          · simp only [hex, if_true]; exact ⟨_, rfl⟩
          · simp only [hex]
            exact ih (by exact hsub) hc
        · simp only [htr]
          exact ih (by exact hsub) hc

/-! ### merging graphs -/

/-- The merged list of one node. -/
def mergeKids (l m : Option (List H)) : Option (List H) :=
  match l, m with
  | l, none => l
  | none, some m => some m
  | some l, some m => if 0 < l.length ∧ m.length ≤ l.length then some l else some m

theorem get?_mergeNodes (nc pnc : Dict H (List H)) (hnd : pnc.keys.Nodup) (k : H) :
    (mergeNodes nc pnc).get? k = mergeKids (nc.get? k) (pnc.get? k) := by
  unfold mergeNodes
  induction pnc generalizing nc with
  | nil => simp [mergeKids]
  | cons p pnc ih =>
    rw [List.foldl_cons]
    rw [Dict.keys_cons, List.nodup_cons] at hnd
    rw [ih _ hnd.2]
    have hp : Dict.get? pnc p.1 = none := (Dict.get?_eq_none_iff _ _).2 hnd.1
    by_cases e : p.1 = k
    · subst e
      simp only [hp, Dict.get?_cons, mergeKids]
      match hl : nc.get? p.1 with
      | none => simp
      | some l =>
        simp only
        split <;> simp_all
    · simp only [Dict.get?_cons, e]
      congr 1
      match hl : nc.get? p.1 with
      | none => simp only; rw [Dict.get?_set_ne _ _ e]
      | some l =>
        simp only
        split
        · rfl
        · rw [Dict.get?_set_ne _ _ e]

theorem nodup_mergeNodes (nc pnc : Dict H (List H)) (hnd : nc.keys.Nodup) : (mergeNodes nc pnc).keys.Nodup := by
  unfold mergeNodes
  induction pnc generalizing nc with
  | nil => exact hnd
  | cons p pnc ih =>
    rw [List.foldl_cons]
    apply ih
    split
    · split
      · exact hnd
      · exact Dict.nodup_keys_set _ _ _ hnd
    · exact Dict.nodup_keys_set _ _ _ hnd

theorem mergeKids_cases (l m : Option (List H)) : mergeKids l m = l ∨ mergeKids l m = m := by
  unfold mergeKids
  split
  · exact Or.inl rfl
  · exact Or.inr rfl
  · split
    · exact Or.inl rfl
    · exact Or.inr rfl

theorem mergeKids_isSome (l m : Option (List H)) : (mergeKids l m).isSome = (l.isSome || m.isSome) := by
  unfold mergeKids
  split
  · simp
  · simp
  · split <;> simp

theorem mem_keys_mergeNodes (nc pnc : Dict H (List H)) (hnd : pnc.keys.Nodup) (k : H) :
    k ∈ (mergeNodes nc pnc).keys ↔ k ∈ nc.keys ∨ k ∈ pnc.keys := by
  rw [Dict.mem_keys_iff, get?_mergeNodes _ _ hnd, mergeKids_isSome, Dict.mem_keys_iff, Dict.mem_keys_iff]
  simp

/-- A well-formed node graph below `s0`: nodes carry either nothing (not expanded yet) or all the edges of a
set with that identity, and edges lead to recorded nodes. -/
structure Graph (s0 : SetObj H) (nc : Dict H (List H)) : Prop where
  nd : nc.keys.Nodup
  rootMem : hid hash s0 ∈ nc.keys
  node : ∀ h ks, nc.get? h = some ks → ∃ s, Met hash a im s0 s ∧ hid hash s = h ∧ (ks = [] ∨ Kids hash a im s ks)
  closed : ∀ h ks k, nc.get? h = some ks → k ∈ ks → k ∈ nc.keys

/-- The node `h` carries all its edges. -/
def Expanded (s0 : SetObj H) (nc : Dict H (List H)) (h : H) : Prop :=
  ∃ ks s, nc.get? h = some ks ∧ Met hash a im s0 s ∧ hid hash s = h ∧ Kids hash a im s ks

theorem Inv.graph {R : Cnf} {s0 : SetObj H} {ps : PS H} {l : List (SetObj H)}
    (h : Inv hash a im R s0 (hid hash s0) ps l) : Graph hash a im s0 ps.nodesChildren := by
  refine ⟨h.nd, h.rootMem, ?_, ?_⟩
  · intro k ks hk
    rcases h.done k ks hk with ⟨x, hx, e⟩ | ⟨s, _, h2, h3, h4, _, _⟩
    · obtain ⟨_, b2, _, _, b5⟩ := h.items x hx
      rw [e, hk] at b5
      exact ⟨x, b2, e, Or.inl (by simpa using b5)⟩
    · exact ⟨s, h2, h3, Or.inr h4⟩
  · intro k ks k' hk hk'
    rcases h.done k ks hk with ⟨x, hx, e⟩ | ⟨s, _, h2, h3, h4, h5, _⟩
    · obtain ⟨_, b2, _, _, b5⟩ := h.items x hx
      rw [e, hk] at b5
      have : ks = [] := by simpa using b5
      rw [this] at hk'; simp at hk'
    · exact h5 k' hk'

theorem Inv.expanded {R : Cnf} {s0 : SetObj H} {root : H} {ps : PS H} {l : List (SetObj H)}
    (h : Inv hash a im R s0 root ps l) {k : H} (hk : k ∈ ps.nodesChildren.keys) (hq : ∀ x ∈ l, hid hash x ≠ k) :
    Expanded hash a im s0 ps.nodesChildren k := by
  obtain ⟨ks, hks⟩ := Dict.exists_get?_of_mem hk
  rcases h.done k ks hks with ⟨x, hx, e⟩ | ⟨s, _, h2, h3, h4, _, _⟩
  · exact absurd e (hq x hx)
  · exact ⟨ks, s, hks, h2, h3, h4⟩

theorem Graph.merge {s0 x : SetObj H} (hx : Met hash a im s0 x) {nc pnc : Dict H (List H)}
    (h : Graph hash a im s0 nc) (hp : Graph hash a im x pnc) : Graph hash a im s0 (mergeNodes nc pnc) := by
  have hg := get?_mergeNodes nc pnc hp.nd
  have hm := mem_keys_mergeNodes nc pnc hp.nd
  have hcase : ∀ k ks, (mergeNodes nc pnc).get? k = some ks → nc.get? k = some ks ∨ pnc.get? k = some ks := by
    intro k ks hk
    rw [hg] at hk
    rcases mergeKids_cases (nc.get? k) (pnc.get? k) with e | e
    · exact Or.inl (e ▸ hk)
    · exact Or.inr (e ▸ hk)
  refine ⟨nodup_mergeNodes _ _ h.nd, (hm _).2 (Or.inl h.rootMem), ?_, ?_⟩
  · intro k ks hk
    rcases hcase k ks hk with hk | hk
    · exact h.node k ks hk
    · obtain ⟨s, h1, h2, h3⟩ := hp.node k ks hk
      exact ⟨s, hx.trans hash a im h1, h2, h3⟩
  · intro k ks k' hk hk'
    rcases hcase k ks hk with hk | hk
    · exact (hm _).2 (Or.inl (h.closed k ks k' hk hk'))
    · exact (hm _).2 (Or.inr (hp.closed k ks k' hk hk'))

theorem Graph.merge_expanded {s0 x : SetObj H} (hx : Met hash a im s0 x) {nc pnc : Dict H (List H)}
    (h : Graph hash a im s0 nc) (hp : Graph hash a im x pnc) {k : H}
    (he : Expanded hash a im s0 nc k ∨ Expanded hash a im x pnc k) :
    Expanded hash a im s0 (mergeNodes nc pnc) k := by
  have hg := get?_mergeNodes nc pnc hp.nd k
  -- both sides, when present, are either empty or complete
  have hl : ∀ ks, nc.get? k = some ks → ks ≠ [] → Expanded hash a im s0 nc k := by
    intro ks hk hne
    obtain ⟨s, h1, h2, h3⟩ := h.node k ks hk
    exact ⟨ks, s, hk, h1, h2, h3.resolve_left hne⟩
  have hr : ∀ ks, pnc.get? k = some ks → ks ≠ [] → ∃ s, Met hash a im s0 s ∧ hid hash s = k ∧ Kids hash a im s ks := by
    intro ks hk hne
    obtain ⟨s, h1, h2, h3⟩ := hp.node k ks hk
    exact ⟨s, hx.trans hash a im h1, h2, h3.resolve_left hne⟩
  have toM : ∀ ks, (mergeNodes nc pnc).get? k = some ks →
      (∃ s, Met hash a im s0 s ∧ hid hash s = k ∧ Kids hash a im s ks) →
      Expanded hash a im s0 (mergeNodes nc pnc) k := by
    rintro ks hk ⟨s, h1, h2, h3⟩
    exact ⟨ks, s, hk, h1, h2, h3⟩
  match h1 : nc.get? k, h2 : pnc.get? k with
  | none, none =>
    rcases he with ⟨ks, _, e, _⟩ | ⟨ks, _, e, _⟩
    · rw [h1] at e; simp at e
    · rw [h2] at e; simp at e
  | some l, none =>
    rw [h1, h2] at hg
    rcases he with ⟨ks, s, e, b⟩ | ⟨ks, _, e, _⟩
    · rw [h1] at e
      cases e; exact toM l hg ⟨s, b⟩
    · rw [h2] at e; simp at e
  | none, some m =>
    rw [h1, h2] at hg
    rcases he with ⟨ks, s, e, b⟩ | ⟨ks, s, e, b1, b2, b3⟩
    · rw [h1] at e; simp at e
    · rw [h2] at e
      have : m = ks := by simpa using e
      exact toM m hg ⟨s, hx.trans hash a im b1, b2, by rw [this]; exact b3⟩
  | some l, some m =>
    rw [h1, h2] at hg
    unfold mergeKids at hg
    simp only at hg
    by_cases hc : 0 < l.length ∧ m.length ≤ l.length
    · rw [if_pos hc] at hg
      obtain ⟨ks, s, e, b⟩ := hl l h1 (by intro e; rw [e] at hc; simp at hc)
      rw [h1] at e
      cases e
      exact toM l hg ⟨s, b⟩
    · rw [if_neg hc] at hg
      by_cases hm : m = []
      · have hle : l = [] := by
          by_contra hne
          apply hc
          rw [hm]
          exact ⟨List.length_pos_iff.2 hne, by simp⟩
        rcases he with ⟨ks, s, e, b⟩ | ⟨ks, s, e, b1, b2, b3⟩
        · rw [h1] at e
          cases e
          exact toM m hg ⟨s, by rw [hm, ← hle]; exact b⟩
        · rw [h2] at e
          exact toM m hg ⟨s, hx.trans hash a im b1, b2, by
            have : m = ks := by simpa using e
            rw [this]; exact b3⟩
      · exact toM m hg (hr m h2 hm)

/-! ### the result of a run -/

/-- What a finished run on the set `s0` of the formula `R` leaves behind. -/
structure Result (R : Cnf) (s0 : SetObj H) (ps : PS H) : Prop where
  sat : ps.isSat = true ↔ ps.solution.isSome
  sol : ∀ d, ps.solution = some d → MakesTrue d R ∧ SolKeys d
  unsat : NoColl hash a im s0 → ps.isSat = false → ¬ Satisfiable (raws s0.clauses)
  graph : Graph hash a im s0 ps.nodesChildren
  full : ¬ (a.exitUponSolving = true ∧ ps.isSat = true) →
    ∀ k ∈ ps.nodesChildren.keys, Expanded hash a im s0 ps.nodesChildren k

theorem Inv.root_unsat {R : Cnf} (hR : Proper R) {s0 : SetObj H} (hs0 : Tracks R s0) (hcoll : NoColl hash a im s0)
    {ps : PS H} {l : List (SetObj H)} (h : Inv hash a im R s0 (hid hash s0) ps l) (hns : ps.isSat = false)
    (hq : ∀ x ∈ l, ¬ Satisfiable (raws x.clauses)) : ¬ Satisfiable (raws s0.clauses) := by
  rw [← raws_store a.useRuntimeDb s0]
  apply h.unsat hash a im hR hs0 hcoll hns hq _ _ (Nat.le_refl _) Met.root
  rw [hid_store hash hs0.node]
  exact h.rootMem

theorem Inv.result {R : Cnf} (hR : Proper R) {s0 : SetObj H} (hs0 : Tracks R s0)
    {ps : PS H} {l : List (SetObj H)} (h : Inv hash a im R s0 (hid hash s0) ps l) (hst : Stopped a ps l) :
    Result hash a im R s0 ps := by
  refine ⟨h.sat, h.sol, ?_, h.graph hash a im, ?_⟩
  · intro hcoll hns
    apply h.root_unsat hash a im hR hs0 hcoll hns
    rcases hst with rfl | ⟨_, hs⟩
    · simp
    · rw [hns] at hs; simp at hs
  · intro hn k hk
    rcases hst with rfl | hs
    · exact h.expanded hash a im hk (by simp)
    · exact absurd hs hn

/-- The threads started for the nodes `l`. -/
def threadsFor (seen : List H) (g : Gdb H) (fails : Nat → Bool) (l : List (SetObj H)) : List (Thread H) :=
  l.mapIdx fun i n => { node := n, msg := workerMsg hash a im seen g (fails i) n }

/-- A thread reporting the result of its node. -/
def Works (R : Cnf) (t : Thread H) : Prop :=
  ∃ ps l, t.msg = some (.done ps.isSat ps.nodesChildren ps.solution) ∧
    Inv hash a im R t.node (hid hash t.node) ps l ∧ Stopped a ps l

theorem threads_work (hg : a.useGlobalDb = false) (seen : List H) (g : Gdb H) {fails : Nat → Bool}
    (hf : a.useRuntimeDb = true → ∀ i, fails i = false) {R : Cnf} (hR : Proper R) {l : List (SetObj H)}
    (hl : ∀ x ∈ l, Ready hash a R x) : ∀ t ∈ threadsFor hash a im seen g fails l, Works hash a im R t ∧ t.node ∈ l := by
  intro t ht
  unfold threadsFor at ht
  obtain ⟨i, hi, rfl⟩ := List.mem_mapIdx.1 ht
  simp only
  have hmem : l[i] ∈ l := List.getElem_mem hi
  refine ⟨?_, hmem⟩
  obtain ⟨ps, l', h1, h2, h3, _⟩ := runWorker_ok hash a im hg seen g 0 hR (hl _ hmem)
  refine ⟨ps, l', ?_, h2, h3⟩
  simp only
  unfold workerMsg
  rw [if_neg, h1]
  · rfl
  · rw [hg]
    cases hd : a.useRuntimeDb
    · simp
    · simp [hf hd i]

/-- State after receiving some messages, relative to the state `ps0` before (queue `l`). -/
structure Merged (R : Cnf) (s0 : SetObj H) (ps0 : PS H) (ts : List (Thread H)) (ps : PS H) : Prop where
  sat : ps.isSat = true ↔ ps.solution.isSome
  sol : ∀ d, ps.solution = some d → MakesTrue d R ∧ SolKeys d
  queue : ps.queue = ps0.queue
  graph : Graph hash a im s0 ps.nodesChildren
  mono : ∀ k, Expanded hash a im s0 ps0.nodesChildren k → Expanded hash a im s0 ps.nodesChildren k
  keys : ∀ k ∈ ps.nodesChildren.keys, k ∈ ps0.nodesChildren.keys ∨
    (¬ (a.exitUponSolving = true ∧ ps.isSat = true) → Expanded hash a im s0 ps.nodesChildren k)
  workers : ∀ t ∈ ts, ¬ (a.exitUponSolving = true ∧ ps.isSat = true) →
    Expanded hash a im s0 ps.nodesChildren (hid hash t.node)
  satMono : ps0.isSat = true → ps.isSat = true
  solves : (∃ t ∈ ts, Solves t) → ps.isSat = true
  unsat : NoColl hash a im s0 → ps.isSat = false → ∀ t ∈ ts, ¬ Satisfiable (raws t.node.clauses)

theorem Merged.start {R : Cnf} {s0 : SetObj H} {ps : PS H} {l : List (SetObj H)}
    (h : Inv hash a im R s0 (hid hash s0) ps l) (q : Queue H) :
    Merged hash a im R s0 { ps with queue := q } [] { ps with queue := q } :=
  ⟨h.sat, h.sol, rfl, h.graph hash a im, fun _ h => h, fun _ h => Or.inl h, by simp, fun h => h, by simp, by simp⟩

theorem Merged.step {R : Cnf} (hR : Proper R) {s0 : SetObj H} (h0 : Tracks R s0) {ps0 ps : PS H}
    {ts : List (Thread H)} (h : Merged hash a im R s0 ps0 ts ps) {t : Thread H} (ht : Works hash a im R t)
    (hm : Met hash a im s0 t.node) : Merged hash a im R s0 ps0 (ts ++ [t]) (mergeOne ps t) := by
  obtain ⟨pw, lw, hmsg, hinv, hst⟩ := ht
  have hres := hinv.result hash a im hR (hm.tracks hash a im hR h0) hst
  have hgw := hres.graph
  have htr : truthy pw.solution = pw.isSat :=
    truthy_iff (hm.tracks hash a im hR h0).ne_nil hinv.sat hinv.sol
  have e : mergeOne ps t = { ps with nodesChildren := mergeNodes ps.nodesChildren pw.nodesChildren, isSat := ps.isSat || pw.isSat, solution := if pw.isSat then pw.solution else ps.solution } := by
    unfold mergeOne; rw [hmsg]; simp only [htr]
  rw [e]
  have hexpW : ¬ (a.exitUponSolving = true ∧ (ps.isSat || pw.isSat) = true) → ∀ k ∈ pw.nodesChildren.keys,
      Expanded hash a im s0 (mergeNodes ps.nodesChildren pw.nodesChildren) k := by
    intro hn k hk
    apply h.graph.merge_expanded hash a im hm hgw
    right
    apply hres.full _ k hk
    rintro ⟨h1, h2⟩
    exact hn ⟨h1, by rw [h2]; simp⟩
  refine ⟨?_, ?_, h.queue, h.graph.merge hash a im hm hgw, ?_, ?_, ?_, ?_, ?_, ?_⟩
  · simp only
    by_cases hw : pw.isSat = true
    · simp only [hw, if_true, Bool.or_true, true_iff]
      exact hinv.sat.1 hw
    · have hw : pw.isSat = false := by simpa using hw
      simp only [hw, Bool.or_false, Bool.false_eq_true, if_false]
      exact h.sat
  · intro d hd
    simp only at hd
    split at hd
    · exact hinv.sol d hd
    · exact h.sol d hd
  · intro k hk
    exact h.graph.merge_expanded hash a im hm hgw (Or.inl (h.mono k hk))
  · intro k hk
    simp only at hk
    rcases (mem_keys_mergeNodes _ _ hgw.nd k).1 hk with hk | hk
    · rcases h.keys k hk with hk | hk
      · exact Or.inl hk
      · right
        intro hn
        apply h.graph.merge_expanded hash a im hm hgw (Or.inl (hk _))
        rintro ⟨h1, h2⟩
        exact hn ⟨h1, by simp [h2]⟩
    · exact Or.inr fun hn => hexpW hn k hk
  · intro t' ht' hn
    rcases List.mem_append.1 ht' with ht' | ht'
    · apply h.graph.merge_expanded hash a im hm hgw (Or.inl (h.workers t' ht' _))
      rintro ⟨h1, h2⟩
      exact hn ⟨h1, by simp [h2]⟩
    · rw [List.mem_singleton] at ht'
      subst ht'
      exact hexpW hn _ hgw.rootMem
  · intro hs; simp [h.satMono hs]
  · rintro ⟨t', ht', s, nc, sol, h1, h2⟩
    rcases List.mem_append.1 ht' with ht' | ht'
    · simp [h.solves ⟨t', ht', s, nc, sol, h1, h2⟩]
    · rw [List.mem_singleton] at ht'
      subst ht'
      rw [hmsg] at h1
      cases h1
      rw [htr] at h2
      simp [h2]
  · intro hcoll hns t' ht'
    simp only [Bool.or_eq_false_iff] at hns
    rcases List.mem_append.1 ht' with ht' | ht'
    · exact h.unsat hcoll hns.1 t' ht'
    · rw [List.mem_singleton] at ht'
      subst ht'
      exact hres.unsat (hcoll.sub hash a im hm) hns.2

theorem Merged.foldl {R : Cnf} (hR : Proper R) {s0 : SetObj H} (h0 : Tracks R s0) {ps0 : PS H} :
    ∀ (ts : List (Thread H)) {us : List (Thread H)} {ps : PS H}, Merged hash a im R s0 ps0 us ps →
      (∀ t ∈ ts, Works hash a im R t ∧ Met hash a im s0 t.node) →
      Merged hash a im R s0 ps0 (us ++ ts) (ts.foldl mergeOne ps) := by
  intro ts
  induction ts with
  | nil => intro us ps h _; simpa using h
  | cons t ts ih =>
    intro us ps h hw
    have := ih (h.step hash a im hR h0 (hw t (by simp)).1 (hw t (by simp)).2) (fun t' ht' => hw t' (by simp [ht']))
    simpa using this

/-- The main process, whatever the schedule, ends with a correct result as soon as every worker has reported. -/
theorem runMain_ok (hg : a.useGlobalDb = false) (seen : List H) (g : Gdb H) (maxT : Nat) {fails : Nat → Bool}
    (hf : a.useRuntimeDb = true → ∀ i, fails i = false) {sched : List Bool} (hsc : maxT ≤ sched.count true)
    {R : Cnf} (hR : Proper R) {s : SetObj H} (hs : Ready hash a R s) :
    ∃ ps, runMain hash a im seen g maxT fails sched s = pure ps ∧ Result hash a im R s ps := by
  obtain ⟨ps0, h0, hinv, hu, _, hnc⟩ := initPS_ok hash a im g 1 hs
  have hne := hs.tracks.ne_nil
  obtain ⟨ps, hrun, hres⟩ := pyWhile_totalN (step := mainStep hash a im seen maxT fails sched)
    (fun n st => (∃ l, Inv hash a im R s (hid hash s) st.ps l ∧ weight l + 1 = n) ∨
      (n = 0 ∧ Result hash a im R s st.ps ∧ keepGoing a st.ps = false))
    (fun ps => Result hash a im R s ps)
    (by
      rintro n ⟨ps, gen⟩ (⟨l, hi, hw⟩ | ⟨_, h1, h2⟩)
      swap
      · right
        simp only at h1 h2
        refine ⟨ps, ?_, h1⟩
        unfold mainStep
        simp [h2]
      simp only at hi
      by_cases hk : NDP.keepGoing a ps = true
      swap
      · right
        refine ⟨ps, ?_, ?_⟩
        · unfold mainStep; simp [hk]
        · apply hi.result hash a im hR hs.tracks
          rw [hi.keepGoing hash a im hne] at hk
          unfold Stopped
          cases l <;> simp_all
      left
      unfold mainStep
      simp only [hk, if_true]
      rw [hi.keepGoing hash a im hne] at hk
      match l, hi, hw with
      | [], _, _ => simp at hk
      | x :: l, hi, hw =>
        obtain ⟨ps', l', e1, e2, e3, _, _, _, e7⟩ := hi.step hash a im hg seen hR
        rw [e1]
        simp only [M.pure_bind]
        by_cases hsp : (gen && decide (0 < maxT) && decide (maxT = ps'.queue.size)) = true
        swap
        · rw [if_neg hsp]
          exact ⟨_, weight l' + 1, rfl, Or.inl ⟨l', e2, rfl⟩, by omega⟩
        rw [if_pos hsp]
        have hT : maxT = l'.length := by
          simp only [Bool.and_eq_true, decide_eq_true_eq] at hsp
          rw [hsp.2, e2.rep.size]
        rw [hT] at hsc ⊢
        obtain ⟨q', k1, k2, k3⟩ := popMany_ok l' ps'.queue e2.rep
        rw [k1]
        simp only [M.pure_bind]
        have hthr := threads_work hash a im hg seen ps'.gdb hf hR (fun x hx => e2.ready hash a im hR hs hx)
        have hrep : ∀ t ∈ threadsFor hash a im seen ps'.gdb fails l', Reports t := by
          intro t ht
          obtain ⟨⟨p, _, h, _⟩, _⟩ := hthr t ht
          exact ⟨_, _, _, h⟩
        have hlen : (threadsFor hash a im seen ps'.gdb fails l').length = l'.length := by simp [threadsFor]
        have hthr' : ∀ t ∈ threadsFor hash a im seen ps'.gdb fails l', Works hash a im R t ∧ Met hash a im s t.node :=
          fun t ht => ⟨(hthr t ht).1, (e2.items _ (hthr t ht).2).2.1⟩
        have hnodes : ∀ x ∈ l', ∃ t ∈ threadsFor hash a im seen ps'.gdb fails l', t.node = x := by
          intro x hx
          obtain ⟨i, hi, rfl⟩ := List.mem_iff_getElem.1 hx
          refine ⟨_, List.mem_mapIdx.2 ⟨i, hi, rfl⟩, rfl⟩
        clear hthr
        have hfold : (List.mapIdx (fun i n => ({ node := n, msg := workerMsg hash a im seen ps'.gdb (fails i) n } : Thread H)) l')
          = threadsFor hash a im seen ps'.gdb fails l' := rfl
        rw [hfold]
        obtain ⟨T, hTe⟩ : ∃ T, threadsFor hash a im seen ps'.gdb fails l' = T := ⟨_, rfl⟩
        rw [hTe] at hrep hlen hthr' hnodes ⊢
        obtain ⟨ps'', hcol⟩ := collect_total (a := a) (sched := sched)
          (st := { ps := { ps' with queue := q' }, threads := T }) hrep (by simp only; omega)
        obtain ⟨ts, rest, hperm, hps'', hrest⟩ := collect_sound a hrep hcol
        rw [hcol]
        simp only [M.pure_bind] at hps'' ⊢
        refine ⟨_, 0, rfl, Or.inr ⟨rfl, ?_, ?_⟩, by omega⟩
        all_goals
          have hmg := (Merged.start hash a im e2 q').foldl hash a im hR hs.tracks ts
            (fun t ht => hthr' t (hperm.subset (List.mem_append_left _ ht)))
          rw [← hps'', List.nil_append] at hmg
        · have hall : ¬ (a.exitUponSolving = true ∧ ps''.isSat = true) → ∀ x ∈ l', ∃ t ∈ ts, t.node = x := by
            intro hn x hx
            rcases hrest with rfl | ⟨h1, h2⟩
            · obtain ⟨t, ht, e⟩ := hnodes x hx
              refine ⟨t, ?_, e⟩
              have := hperm.symm.subset ht
              simpa using this
            · exact absurd ⟨h1, hmg.solves h2⟩ hn
          refine ⟨hmg.sat, hmg.sol, ?_, hmg.graph, ?_⟩
          · intro hcoll hns
            have h1 : ps'.isSat = false := by
              cases h : ps'.isSat
              · rfl
              · have := hmg.satMono h
                rw [hns] at this; simp at this
            apply e2.root_unsat hash a im hR hs.tracks hcoll h1
            intro x hx
            obtain ⟨t, ht, rfl⟩ := hall (by rw [hns]; simp) x hx
            exact hmg.unsat hcoll hns t ht
          · intro hn k hk
            rcases hmg.keys k hk with hk | hk
            · by_cases hx : ∃ x ∈ l', hid hash x = k
              · obtain ⟨x, hx, rfl⟩ := hx
                obtain ⟨t, ht, rfl⟩ := hall hn x hx
                exact hmg.workers t ht hn
              · apply hmg.mono
                exact e2.expanded hash a im hk (fun x hx' e => hx ⟨x, hx', e⟩)
            · exact hk hn
        · unfold NDP.keepGoing Queue.isEmpty
          simp only
          rw [hmg.queue, k2.size]
          simp)
    (weight [store a.useRuntimeDb s] + 1) { ps := ps0, gen := decide (0 < maxT) } (Or.inl ⟨_, hinv, rfl⟩)
  refine ⟨ps, ?_, hres⟩
  unfold runMain
  rw [h0]; exact hrun

/-! ### any schedule, any failing workers -/

theorem mergeOne_queue (ps : PS H) (q : Queue H) (t : Thread H) :
    mergeOne { ps with queue := q } t = { mergeOne ps t with queue := q } := by
  unfold mergeOne
  split <;> rfl

theorem foldl_mergeOne_queue (ts : List (Thread H)) (ps : PS H) (q : Queue H) :
    ts.foldl mergeOne { ps with queue := q } = { ts.foldl mergeOne ps with queue := q } := by
  induction ts generalizing ps with
  | nil => rfl
  | cons t ts ih => rw [List.foldl_cons, mergeOne_queue, ih, List.foldl_cons]

/-- If the collecting loop ends at all, either every worker has reported, or (with `-e`) one has solved it. -/
theorem collect_sound_any {sched : List Bool} : ∀ {st : CollectSt H} {ps' : PS H},
    collect a sched st = pure ps' →
    ∃ (ts : List (Thread H)) (q : Queue H), (∀ t ∈ ts, t ∈ st.threads ∧ Reports t) ∧ ps' = { ts.foldl mergeOne st.ps with queue := q } ∧
      ((q = st.ps.queue ∧ ∀ t ∈ st.threads, t ∈ ts) ∨ (a.exitUponSolving = true ∧ ∃ t ∈ ts, Solves t)) := by
  induction sched with
  | nil =>
    intro st ps' h
    unfold collect at h
    split at h
    · next e =>
      have : st.threads = [] := by simpa using e
      exact ⟨[], st.ps.queue, by simp, by simpa using h.symm, Or.inl ⟨rfl, by simp [this]⟩⟩
    · simp at h
  | cons r rs ih =>
    intro st ps' h
    unfold collect collectStep at h
    by_cases e : st.threads.length = 0
    · rw [if_pos e] at h
      have : st.threads = [] := by simpa using e
      exact ⟨[], st.ps.queue, by simp, by simpa using h.symm, Or.inl ⟨rfl, by simp [this]⟩⟩
    rw [if_neg e] at h
    simp only at h
    have hlt : st.i % st.threads.length < st.threads.length := Nat.mod_lt _ (by omega)
    obtain ⟨j, hj⟩ : ∃ j, st.i % st.threads.length = j := ⟨_, rfl⟩
    rw [hj] at h hlt
    have hget : st.threads[j]? = some st.threads[j] := List.getElem?_eq_getElem hlt
    rw [hget] at h
    obtain ⟨t, ht⟩ : ∃ t, st.threads[j] = t := ⟨_, rfl⟩
    rw [ht] at h
    have htm : t ∈ st.threads := ht ▸ List.getElem_mem hlt
    have hperm : List.Perm (t :: st.threads.eraseIdx j) st.threads := by
      rw [← ht]; exact List.getElem_cons_eraseIdx_perm hlt
    have wait : collect a rs { st with i := j + 1 } = pure ps' → _ := fun h => ih (st := { st with i := j + 1 }) h
    cases r with
    | false =>
      simp only [M.pure_bind] at h
      exact wait h
    | true =>
      match hmsg : t.msg with
      | none =>
        simp only [hmsg, M.pure_bind] at h
        exact wait h
      | some .failed =>
        simp only [hmsg] at h
        rcases M.cases (st.ps.queue.insert t.node) with hq | ⟨err, hq⟩ | ⟨q, hq⟩
        · rw [hq] at h; simp at h
        · rw [hq] at h; simp at h
        · rw [hq] at h
          simp only [M.pure_bind] at h
          obtain ⟨ts, q', h1, h2, h3⟩ := ih h
          have hnone : ({ t with msg := none } : Thread H) ∈ st.threads.set j { t with msg := none } :=
            List.mem_set hlt _
          refine ⟨ts, q', ?_, ?_, ?_⟩
          · intro u hu
            obtain ⟨hu1, hu2⟩ := h1 u hu
            refine ⟨?_, hu2⟩
            rcases List.mem_or_eq_of_mem_set hu1 with hu1 | rfl
            · exact hu1
            · obtain ⟨_, _, _, hu2⟩ := hu2
              simp at hu2
          · rw [h2, foldl_mergeOne_queue]
          · rcases h3 with ⟨_, h3⟩ | h3
            · obtain ⟨_, _, _, hu2⟩ := (h1 _ (h3 _ hnone)).2
              simp at hu2
            · exact Or.inr h3
      | some (.done s nc sol) =>
        simp only [hmsg] at h
        have hrep : Reports t := ⟨s, nc, sol, hmsg⟩
        by_cases htr : truthy sol = true
        · rw [if_pos htr] at h
          by_cases hex : a.exitUponSolving = true
          · rw [if_pos hex] at h
            refine ⟨[t], st.ps.queue, by simp [htm, hrep], ?_, Or.inr ⟨hex, t, by simp, s, nc, sol, hmsg, htr⟩⟩
            simp only [List.foldl_cons, List.foldl_nil, mergeOne, hmsg, htr, if_true]
            simpa using h.symm
          · rw [if_neg hex] at h
            obtain ⟨ts, q, h1, h2, h3⟩ := ih h
            refine ⟨t :: ts, q, ?_, ?_, ?_⟩
            · intro u hu
              rcases List.mem_cons.1 hu with rfl | hu
              · exact ⟨htm, hrep⟩
              · exact ⟨List.mem_of_mem_eraseIdx (h1 u hu).1, (h1 u hu).2⟩
            · rw [h2, List.foldl_cons]
              simp only [mergeOne, hmsg, htr, if_true]
            · rcases h3 with ⟨r1, r2⟩ | ⟨r, _⟩
              · refine Or.inl ⟨r1, fun u hu => ?_⟩
                rcases List.mem_cons.1 (hperm.symm.subset hu) with rfl | hu
                · simp
                · exact List.mem_cons_of_mem _ (r2 u hu)
              · exact absurd r hex
        · rw [if_neg htr] at h
          obtain ⟨ts, q, h1, h2, h3⟩ := ih h
          refine ⟨t :: ts, q, ?_, ?_, ?_⟩
          · intro u hu
            rcases List.mem_cons.1 hu with rfl | hu
            · exact ⟨htm, hrep⟩
            · exact ⟨List.mem_of_mem_eraseIdx (h1 u hu).1, (h1 u hu).2⟩
          · rw [h2, List.foldl_cons]
            simp only [mergeOne, hmsg, htr]; simp
          · rcases h3 with ⟨r1, r2⟩ | ⟨r, u, h4, h5⟩
            · refine Or.inl ⟨r1, fun u hu => ?_⟩
              rcases List.mem_cons.1 (hperm.symm.subset hu) with rfl | hu
              · simp
              · exact List.mem_cons_of_mem _ (r2 u hu)
            · exact Or.inr ⟨r, u, by simp [h4], h5⟩

/-- Workers that fail to connect, or the result of their node. -/
theorem threads_work_any (hg : a.useGlobalDb = false) (seen : List H) (g : Gdb H) {fails : Nat → Bool}
    {R : Cnf} (hR : Proper R) {l : List (SetObj H)} (hl : ∀ x ∈ l, Ready hash a R x) :
    ∀ t ∈ threadsFor hash a im seen g fails l, Reports t → Works hash a im R t ∧ t.node ∈ l := by
  intro t ht hrep
  unfold threadsFor at ht
  obtain ⟨i, hi, rfl⟩ := List.mem_mapIdx.1 ht
  simp only
  have hmem : l[i] ∈ l := List.getElem_mem hi
  refine ⟨?_, hmem⟩
  obtain ⟨ps, l', h1, h2, h3, _⟩ := runWorker_ok hash a im hg seen g 0 hR (hl _ hmem)
  refine ⟨ps, l', ?_, h2, h3⟩
  obtain ⟨s, nc, sol, hrep⟩ := hrep
  simp only at hrep ⊢
  unfold workerMsg at hrep ⊢
  split at hrep
  · simp at hrep
  · next hn => rw [if_neg hn, h1]; rfl

/-- Whatever the schedule and whichever workers fail, a main process that finishes has a correct result. -/
theorem runMain_sound (hg : a.useGlobalDb = false) (seen : List H) (g : Gdb H) (maxT : Nat) {fails : Nat → Bool}
    {sched : List Bool} {R : Cnf} (hR : Proper R) {s : SetObj H} (hs : Ready hash a R s) {ps : PS H}
    (hrun : runMain hash a im seen g maxT fails sched s = pure ps) : Result hash a im R s ps := by
  obtain ⟨ps0, h0, hinv, hu, _, hnc⟩ := initPS_ok hash a im g 1 hs
  have hne := hs.tracks.ne_nil
  unfold runMain at hrun
  rw [h0] at hrun
  refine pyWhile_partial (step := mainStep hash a im seen maxT fails sched)
    (fun st => (∃ l, Inv hash a im R s (hid hash s) st.ps l) ∨
      (Result hash a im R s st.ps ∧ keepGoing a st.ps = false))
    (fun ps => Result hash a im R s ps) ?_ ?_ _ _ (Or.inl ⟨_, hinv⟩) hrun
  · rintro ⟨ps, gen⟩ st' (⟨l, hi⟩ | ⟨_, h2⟩) hstep
    swap
    · simp only at h2
      unfold mainStep at hstep
      simp [h2] at hstep
    simp only at hi
    unfold mainStep at hstep
    by_cases hk : NDP.keepGoing a ps = true
    swap
    · simp [hk] at hstep
    simp only [hk, if_true] at hstep
    rw [hi.keepGoing hash a im hne] at hk
    match l, hi with
    | [], _ => simp at hk
    | x :: l, hi =>
      obtain ⟨ps', l', e1, e2, e3, _, _, _, e7⟩ := hi.step hash a im hg seen hR
      rw [e1] at hstep
      simp only [M.pure_bind] at hstep
      by_cases hsp : (gen && decide (0 < maxT) && decide (maxT = ps'.queue.size)) = true
      swap
      · rw [if_neg hsp] at hstep
        have : st' = { ps := ps', gen := gen } := by simpa using hstep.symm
        rw [this]
        exact Or.inl ⟨l', e2⟩
      rw [if_pos hsp] at hstep
      have hT : maxT = l'.length := by
        simp only [Bool.and_eq_true, decide_eq_true_eq] at hsp
        rw [hsp.2, e2.rep.size]
      rw [hT] at hstep
      obtain ⟨q', k1, k2, k3⟩ := popMany_ok l' ps'.queue e2.rep
      rw [k1] at hstep
      simp only [M.pure_bind] at hstep
      have hthr := threads_work_any hash a im hg seen ps'.gdb (fails := fails) hR (fun x hx => e2.ready hash a im hR hs hx)
      have hnodes : ∀ x ∈ l', ∃ t ∈ threadsFor hash a im seen ps'.gdb fails l', t.node = x := by
        intro x hx
        obtain ⟨i, hi, rfl⟩ := List.mem_iff_getElem.1 hx
        refine ⟨_, List.mem_mapIdx.2 ⟨i, hi, rfl⟩, rfl⟩
      have hfold : (List.mapIdx (fun i n => ({ node := n, msg := workerMsg hash a im seen ps'.gdb (fails i) n } : Thread H)) l')
        = threadsFor hash a im seen ps'.gdb fails l' := rfl
      rw [hfold] at hstep
      obtain ⟨T, hTe⟩ : ∃ T, threadsFor hash a im seen ps'.gdb fails l' = T := ⟨_, rfl⟩
      rw [hTe] at hthr hnodes hstep
      rw [M.bind_eq_pure] at hstep
      obtain ⟨ps'', hcol, hst⟩ := hstep
      have hst : st' = { ps := ps'', gen := false } := by simpa using hst.symm
      rw [hst]
      obtain ⟨ts, q, hts, hps'', hrest⟩ := collect_sound_any a hcol
      simp only at hps'' hrest hts
      have hmg := (Merged.start hash a im e2 q').foldl hash a im hR hs.tracks ts
          (fun t ht => ⟨(hthr t (hts t ht).1 (hts t ht).2).1,
            (e2.items _ (hthr t (hts t ht).1 (hts t ht).2).2).2.1⟩)
      rw [List.nil_append] at hmg
      obtain ⟨pm, hpm⟩ : ∃ pm, ts.foldl mergeOne { ps' with queue := q' } = pm := ⟨_, rfl⟩
      rw [hpm] at hmg hps''
      have hsat : ps''.isSat = pm.isSat := by rw [hps'']
      have hsol : ps''.solution = pm.solution := by rw [hps'']
      have hnc' : ps''.nodesChildren = pm.nodesChildren := by rw [hps'']
      have hqq : ps''.queue = q := by rw [hps'']
      have hall : ¬ (a.exitUponSolving = true ∧ ps''.isSat = true) → ∀ x ∈ l', ∃ t ∈ ts, t.node = x := by
        intro hn x hx
        rcases hrest with ⟨_, h1⟩ | ⟨h1, h2⟩
        · obtain ⟨t, ht, e⟩ := hnodes x hx
          exact ⟨t, h1 t ht, e⟩
        · exact absurd ⟨h1, by rw [hsat]; exact hmg.solves h2⟩ hn
      right
      refine ⟨⟨by rw [hsat, hsol]; exact hmg.sat, by rw [hsol]; exact hmg.sol, ?_, by rw [hnc']; exact hmg.graph, ?_⟩, ?_⟩
      · intro hcoll hns
        simp only at hns
        rw [hsat] at hns
        have h1 : ps'.isSat = false := by
          cases h : ps'.isSat
          · rfl
          · have := hmg.satMono h
            rw [hns] at this; simp at this
        apply e2.root_unsat hash a im hR hs.tracks hcoll h1
        intro x hx
        obtain ⟨t, ht, rfl⟩ := hall (by rw [hsat, hns]; simp) x hx
        exact hmg.unsat hcoll hns t ht
      · intro hn k hk
        simp only at hn hk ⊢
        rw [hnc'] at hk ⊢
        rw [hsat] at hn hall
        rcases hmg.keys k hk with hk | hk
        · by_cases hx : ∃ x ∈ l', hid hash x = k
          · obtain ⟨x, hx, rfl⟩ := hx
            obtain ⟨t, ht, rfl⟩ := hall hn x hx
            exact hmg.workers t ht hn
          · apply hmg.mono
            exact e2.expanded hash a im hk (fun x hx' e => hx ⟨x, hx', e⟩)
        · exact hk hn
      · unfold NDP.keepGoing Queue.isEmpty
        simp only
        rcases hrest with ⟨h1, _⟩ | ⟨h1, h2⟩
        · rw [hqq, h1, k2.size]
          simp
        · have ht : truthy ps''.solution = true := by
            rw [hsol, truthy_iff hne hmg.sat hmg.sol]; exact hmg.solves h2
          simp [ht, h1]
  · rintro ⟨ps, gen⟩ r (⟨l, hi⟩ | ⟨h1, h2⟩) hstep
    swap
    · unfold mainStep at hstep
      simp only at h1 h2
      simp [h2] at hstep
      rw [← hstep]; exact h1
    simp only at hi
    unfold mainStep at hstep
    by_cases hk : NDP.keepGoing a ps = true
    · exfalso
      simp only [hk, if_true] at hstep
      rw [M.bind_eq_pure] at hstep
      obtain ⟨p1, _, hstep⟩ := hstep
      split at hstep
      · rw [M.bind_eq_pure] at hstep
        obtain ⟨p2, _, hstep⟩ := hstep
        rw [M.bind_eq_pure] at hstep
        obtain ⟨p3, _, hstep⟩ := hstep
        simp at hstep
      · simp at hstep
    · simp only [hk, Bool.false_eq_true, if_false, M.pure_inj, Sum.inr.injEq] at hstep
      rw [← hstep]
      apply hi.result hash a im hR hs.tracks
      rw [hi.keepGoing hash a im hne] at hk
      unfold Stopped
      cases l <;> simp_all

end NDP
