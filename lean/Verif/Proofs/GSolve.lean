import Verif.Proofs.GPull
/- `solve_set` with the global table. -/
namespace NDP
open Spec SetObj
variable {H : Type} [DecidableEq H] (hash : Str → H) (a : Args)

/-- The part of a row that is never changed. -/
def Row.core (r : Row H) : Str × H × H × Nat × Nat := (r.body, r.cid1, r.cid2, r.numClauses, r.numVars)

/-- Two tables with the same rows up to statistics. -/
def Gdb.same (g g' : Gdb H) : Prop := ∀ k, (Dict.get? g' k).map Row.core = (Dict.get? g k).map Row.core

theorem Gdb.same.trans {g1 g2 g3 : Gdb H} (h : Gdb.same g1 g2) (h' : Gdb.same g2 g3) : Gdb.same g1 g3 :=
  fun k => (h' k).trans (h k)

theorem Gdb.same.refl (g : Gdb H) : Gdb.same g g := fun _ => rfl

theorem same_set {g : Gdb H} {h : H} {r r' : Row H} (hr : Dict.get? g h = some r) (hc : r'.core = r.core) :
    Gdb.same g (Dict.set g h r') := by
  intro k
  rw [Dict.get?_set]
  split
  · next e => subst e; simp [hr, hc]
  · rfl

theorem same_updateCount (g : Gdb H) (u rn rh : Nat) (h : H) : Gdb.same g (g.updateCount u rn rh h) := by
  unfold Gdb.updateCount
  split
  · next r hr => exact same_set hr rfl
  · exact Gdb.same.refl g

theorem same_updateTimes (g : Gdb H) (t : Nat) (h : H) : Gdb.same g (g.updateRedundantTimes t h) := by
  unfold Gdb.updateRedundantTimes
  split
  · next r hr => exact same_set hr rfl
  · exact Gdb.same.refl g

theorem same_save (g : Gdb H) (stats : Dict H NodeStats) (red : Dict H Nat) : Gdb.same g (saveInGlobalDb g stats red) := by
  unfold saveInGlobalDb
  have h1 : ∀ (l : List (H × NodeStats)) (g : Gdb H),
      Gdb.same g (l.foldl (fun g p => Gdb.updateCount g p.2.unique p.2.redundants p.2.hits p.1) g) := by
    intro l
    induction l with
    | nil => intro g; exact Gdb.same.refl g
    | cons p l ih => intro g; exact (same_updateCount g _ _ _ _).trans (ih _)
  have h2 : ∀ (l : List (H × Nat)) (g : Gdb H),
      Gdb.same g (l.foldl (fun g p => Gdb.updateRedundantTimes g p.2 p.1) g) := by
    intro l
    induction l with
    | nil => intro g; exact Gdb.same.refl g
    | cons p l ih => intro g; exact (same_updateTimes g _ _).trans (ih _)
  exact (h1 _ _).trans (h2 _ _)

theorem Gdb.same.get {g g' : Gdb H} (h : Gdb.same g g') {k : H} {r : Row H} (hr : Dict.get? g k = some r) :
    ∃ r', Dict.get? g' k = some r' ∧ r'.core = r.core := by
  have := h k
  rw [hr] at this
  cases hg : Dict.get? g' k with
  | none => rw [hg] at this; simp at this
  | some r' => rw [hg] at this; exact ⟨r', rfl, Option.some.inj this⟩

theorem Gdb.same.symm {g g' : Gdb H} (h : Gdb.same g g') : Gdb.same g' g := fun k => (h k).symm

/-- A node gets statistics with a positive count when they are saved. -/
theorem save_marks {g : Gdb H} {stats : Dict H NodeStats} {red : Dict H Nat} (hpos : ∀ p ∈ stats, 1 ≤ p.2.unique)
    {h : H} {r : Row H} (hr : Dict.get? g h = some r) (hm : h ∈ Dict.keys stats) :
    ∃ r', Dict.get? (saveInGlobalDb g stats red) h = some r' ∧ 1 ≤ r'.uniqueNodes ∧ r'.core = r.core := by
  have h1 : ∀ (l : List (H × NodeStats)) (g : Gdb H) (r : Row H), (∀ p ∈ l, 1 ≤ p.2.unique) → Dict.get? g h = some r →
      (1 ≤ r.uniqueNodes ∨ h ∈ l.map Prod.fst) →
      ∃ r', Dict.get? (l.foldl (fun g p => Gdb.updateCount g p.2.unique p.2.redundants p.2.hits p.1) g) h = some r' ∧
        1 ≤ r'.uniqueNodes := by
    intro l
    induction l with
    | nil =>
      intro g r _ hr hor
      rcases hor with h | h
      · exact ⟨r, hr, h⟩
      · simp at h
    | cons p l ih =>
      intro g r hp hr hor
      rw [List.foldl_cons]
      unfold Gdb.updateCount
      by_cases e : p.1 = h
      · rw [e, hr]
        exact ih _ { r with uniqueNodes := p.2.unique, redundantNodes := p.2.redundants, redundantHits := p.2.hits }
          (fun q hq => hp q (by simp [hq])) (by simp) (Or.inl (hp p (by simp)))
      · cases hg : Dict.get? g p.1 with
        | none =>
          refine ih _ r (fun q hq => hp q (by simp [hq])) hr ?_
          rcases hor with h | h
          · exact Or.inl h
          · rw [List.map_cons, List.mem_cons] at h
            rcases h with h | h
            · exact absurd h.symm e
            · exact Or.inr h
        | some r2 =>
          refine ih _ r (fun q hq => hp q (by simp [hq])) (by simp only; rw [Dict.get?_set_ne _ _ e, hr]) ?_
          rcases hor with h | h
          · exact Or.inl h
          · rw [List.map_cons, List.mem_cons] at h
            rcases h with h | h
            · exact absurd h.symm e
            · exact Or.inr h
  have h2 : ∀ (l : List (H × Nat)) (g : Gdb H) (r : Row H), Dict.get? g h = some r → 1 ≤ r.uniqueNodes →
      ∃ r', Dict.get? (l.foldl (fun g p => Gdb.updateRedundantTimes g p.2 p.1) g) h = some r' ∧ 1 ≤ r'.uniqueNodes := by
    intro l
    induction l with
    | nil => intro g r hr hu; exact ⟨r, hr, hu⟩
    | cons p l ih =>
      intro g r hr hu
      rw [List.foldl_cons]
      unfold Gdb.updateRedundantTimes
      by_cases e : p.1 = h
      · rw [e, hr]
        exact ih _ { r with redundantTimes := r.redundantTimes + p.2 } (by simp) hu
      · cases hg : Dict.get? g p.1 with
        | none => exact ih _ r hr hu
        | some r2 => exact ih _ r (by simp only; rw [Dict.get?_set_ne _ _ e, hr]) hu
  obtain ⟨r1, hr1, hu1⟩ := h1 stats g r hpos hr (Or.inr hm)
  obtain ⟨r2, hr2, hu2⟩ := h2 red _ r1 hr1 hu1
  refine ⟨r2, hr2, hu2, ?_⟩
  obtain ⟨r3, hr3, hc⟩ := (same_save g stats red).get hr
  unfold saveInGlobalDb at hr3
  have := Option.some.inj (hr2.symm.trans hr3)
  rw [this]; exact hc

/-- Every entry of the statistics counts the node itself. -/
theorem stats_pos {nc : Dict H (List H)} (hc : ClosedGraph nc) (hnd : nc.keys.Nodup) {root : H} {stats : Dict H NodeStats}
    {red : Dict H Nat} (h : constructGraphStats root nc = pure (stats, red)) : ∀ p ∈ stats, 1 ≤ p.2.unique := by
  have key : ∀ (ks : List H) (acc acc' : Dict H NodeStats × Dict H Nat), acc.1.keys.Nodup → (∀ k ∈ acc.1.keys, k ∈ nc.keys) →
      (∀ k ∈ ks, k ∈ nc.keys) → ks.foldlM (fun acc n => do
        let (s, red) ← nodeStats nc n
        pure (acc.1.set n s, if n = root then red else acc.2)) acc = pure acc' →
      acc'.1.keys.Nodup ∧ ∀ k ∈ acc'.1.keys, k ∈ nc.keys := by
    intro ks
    induction ks with
    | nil =>
      intro acc acc' h1 h2 _ h3
      have := (M.pure_inj _ _).1 h3
      subst this
      exact ⟨h1, h2⟩
    | cons k ks ih =>
      intro acc acc' h1 h2 hks h3
      rw [List.foldlM_cons] at h3
      obtain ⟨acc1, e1, h3⟩ := M.bind_eq_pure.1 h3
      obtain ⟨⟨s, r⟩, _, e1⟩ := M.bind_eq_pure.1 e1
      have := (M.pure_inj _ _).1 e1
      subst this
      refine ih _ _ (Dict.nodup_keys_set _ _ _ h1) ?_ (fun x hx => hks x (by simp [hx])) h3
      intro x hx
      rcases (Dict.mem_keys_set _ _ _ _).1 hx with rfl | hx
      · exact hks _ (by simp)
      · exact h2 _ hx
  obtain ⟨n1, n2⟩ := key nc.keys ([], []) (stats, red) (by simp) (by simp) (fun k hk => hk) h
  obtain ⟨stats', red', e, hall⟩ := constructGraphStats_ok hc hnd root
  have := (M.pure_inj _ _).1 (h.symm.trans e)
  have e1 : stats = stats' := congrArg Prod.fst this
  subst e1
  intro p hp
  have hk : p.1 ∈ Dict.keys stats := List.mem_map.2 ⟨p, hp, rfl⟩
  obtain ⟨s, r, V, h1, _, h2, _, h3, _⟩ := hall p.1 (n2 _ hk)
  have h4 := Dict.get?_of_mem n1 (show (p.1, p.2) ∈ stats from hp)
  rw [h4] at h1
  have := Option.some.inj h1
  rw [this, h3.unique]
  have : p.1 ∈ V := (h2.2 _).2 Relation.ReflTransGen.refl
  exact List.length_pos_of_mem this

/-- What `solve_set` does after the search, with the global table. -/
def finishG (h : H) (ps : PS H) : M (Report H) := do
  if a.noStats then
    pure { isSat := ps.isSat, solution := ps.solution, nodesChildren := ps.nodesChildren,
           uniques := ps.uniques, redundants := 0, redundantHits := ps.redundantHits,
           foundInGdb := ps.foundInGdb, gdb := ps.gdb, stats := [] }
  else do
    let (stats, red) ← constructGraphStats h ps.nodesChildren
    let rs := (stats.get? h).getD { unique := 0, redundants := 0, hits := 0 }
    pure { isSat := ps.isSat, solution := ps.solution, nodesChildren := ps.nodesChildren,
           uniques := rs.unique, redundants := rs.redundants, redundantHits := rs.hits,
           foundInGdb := ps.foundInGdb, gdb := saveInGlobalDb ps.gdb stats red, stats := stats }

theorem mem_loadSolved {g : Gdb H} {n : Nat} {h : H} : h ∈ g.loadSolved n ↔ ∃ r, (h, r) ∈ g ∧ r.numClauses ≤ n ∧ 0 < r.uniqueNodes := by
  unfold Gdb.loadSolved
  simp only [List.mem_map, List.mem_filter, decide_eq_true_eq]
  constructor
  · rintro ⟨⟨k, r⟩, ⟨h1, h2⟩, rfl⟩; exact ⟨r, h1, h2⟩
  · rintro ⟨r, h1, h2⟩; exact ⟨(h, r), ⟨h1, h2⟩, rfl⟩

theorem mem_seenAtStart {g : Gdb H} {n : Nat} {h : H} (hm : h ∈ seenAtStart a g n) : h ∈ Dict.keys g := by
  unfold seenAtStart Gdb.loadUnsolved Gdb.loadSolved at hm
  split at hm
  · rw [List.mem_append] at hm
    rcases hm with hm | hm
    · obtain ⟨p, hp, rfl⟩ := List.mem_map.1 hm
      exact List.mem_map.2 ⟨p, (List.mem_filter.1 hp).1, rfl⟩
    · obtain ⟨p, hp, rfl⟩ := List.mem_map.1 hm
      exact List.mem_map.2 ⟨p, (List.mem_filter.1 hp).1, rfl⟩
  · simp at hm

theorem seenAtStart_mem (hg : a.useGlobalDb = true) (hm : a.gdbNoMem = false) {g : Gdb H} {n : Nat} {k : H} {r : Row H}
    (hr : Dict.get? g k = some r) (hn : r.numClauses ≤ n) : k ∈ seenAtStart a g n := by
  unfold seenAtStart Gdb.loadUnsolved Gdb.loadSolved
  simp only [hg, hm, Bool.not_false, Bool.and_self, if_true, List.mem_append, List.mem_map, List.mem_filter, decide_eq_true_eq]
  have := Dict.mem_of_get? hr
  by_cases hu : r.uniqueNodes = 0
  · exact Or.inl ⟨(k, r), ⟨this, hn, hu⟩, rfl⟩
  · exact Or.inr ⟨(k, r), ⟨this, hn, by exact Nat.pos_of_ne_zero hu⟩, rfl⟩

theorem maxThreads_one (h : a.threads = 1) (cpu : Nat) : maxThreads cpu a = 0 := by simp [maxThreads, h]

theorem solveSet_gdb {env : EnvChoice} (ho : OneProcess a env) (g : Gdb H) {R : Cnf} {root : SetObj H} (h : Loaded R root) {s : SetObj H}
    (hs : prepareRoot hash a root = pure (s, hid hash s)) (hns : ¬ MarkedSolved g (hid hash s)) :
    solveSet hash a env g root =
      runMain hash a (inputMode a) (seenAtStart a g s.clauses.length) g 0 env.fails env.sched s >>= finishG a (hid hash s) := by
  have ht : root.toStr = pure (bodyStr root.clauses) := toStr_ok h.value h.ne
  have h1 : (if a.gdbNoMem = true then g.isSolved (hid hash s) else
      decide (hid hash s ∈ if (true && !a.gdbNoMem) = true then g.loadSolved s.clauses.length else [])) = false := by
    by_cases hm : a.gdbNoMem = true
    · rw [if_pos hm]
      unfold Gdb.isSolved
      cases hr : Dict.get? g (hid hash s) with
      | none => rfl
      | some r =>
        simp only [decide_eq_false_iff_not]
        exact fun hu => hns ⟨r, Dict.mem_of_get? hr, hu⟩
    · rw [if_neg hm]
      have hm : a.gdbNoMem = false := by simpa using hm
      simp only [hm, Bool.not_false, Bool.and_self, if_true, decide_eq_false_iff_not, mem_loadSolved]
      rintro ⟨r, h1, _, h3⟩
      exact hns ⟨r, h1, by omega⟩
  unfold solveSet
  simp only [ht, hs, M.pure_bind, ho.gdb, h1, Bool.not_false, if_true, ho.conn, Bool.and_false, Bool.false_eq_true, if_false,
    maxThreads_one a ho.threads]
  unfold seenAtStart
  simp only [ho.gdb]
  have : ∀ b : Bool, (if (true && b) = true then g.loadUnsolved s.clauses.length ++
      (if (true && b) = true then g.loadSolved s.clauses.length else []) else []) =
      if (true && b) = true then g.loadUnsolved s.clauses.length ++ g.loadSolved s.clauses.length else [] := by
    intro b; cases b <;> rfl
  rw [this]
  rfl

theorem solveSet_solved {env : EnvChoice} (hg : a.useGlobalDb = true) (g : Gdb H) {R : Cnf} {root : SetObj H} (h : Loaded R root) {s : SetObj H}
    (hs : prepareRoot hash a root = pure (s, hid hash s)) {r : Row H} (hr : Dict.get? g (hid hash s) = some r)
    (hu : r.uniqueNodes ≠ 0) (hn : r.numClauses ≤ s.clauses.length) :
    ∃ rep, solveSet hash a env g root = pure rep ∧ rep.isSat = false ∧ rep.solution = none := by
  have ht : root.toStr = pure (bodyStr root.clauses) := toStr_ok h.value h.ne
  have h1 : (if a.gdbNoMem = true then g.isSolved (hid hash s) else
      decide (hid hash s ∈ if (true && !a.gdbNoMem) = true then g.loadSolved s.clauses.length else [])) = true := by
    by_cases hm : a.gdbNoMem = true
    · rw [if_pos hm]
      unfold Gdb.isSolved
      rw [hr]
      simpa using hu
    · rw [if_neg hm]
      have hm : a.gdbNoMem = false := by simpa using hm
      simp only [hm, Bool.not_false, Bool.and_self, if_true, decide_eq_true_eq, mem_loadSolved]
      exact ⟨r, Dict.mem_of_get? hr, hn, by omega⟩
  unfold solveSet
  simp only [ht, hs, M.pure_bind, hg, h1, Bool.not_true, Bool.false_eq_true, if_false]
  have : g.getSetData (hid hash s) = some r := hr
  rw [this]
  exact ⟨_, rfl, rfl, rfl⟩

end NDP
