import Verif.Props.Gdb
import Verif.Props.Graph
/-
  C47: the figures kept in the global table (`-gdb`), and the figures reported from it.
-/
namespace NDP
open Spec SetObj
variable {H : Type} [DecidableEq H] (hash : Str → H) {a : Args}

theorem updateCounts_get {h : H} : ∀ (l : Dict H NodeStats) (g : Gdb H) (r : Row H), l.keys.Nodup → Dict.get? g h = some r →
    Dict.get? (l.foldl (fun g p => Gdb.updateCount g p.2.unique p.2.redundants p.2.hits p.1) g) h =
      match Dict.get? l h with
      | some st => some { r with uniqueNodes := st.unique, redundantNodes := st.redundants, redundantHits := st.hits }
      | none => some r := by
  intro l
  induction l with
  | nil => intro g r _ hr; exact hr
  | cons p l ih =>
    intro g r hn hr
    rw [Dict.keys_cons, List.nodup_cons] at hn
    rw [List.foldl_cons, Dict.get?_cons]
    by_cases e : p.1 = h
    · have hu : Gdb.updateCount g p.2.unique p.2.redundants p.2.hits p.1 =
          Dict.set g h { r with uniqueNodes := p.2.unique, redundantNodes := p.2.redundants, redundantHits := p.2.hits } := by
        unfold Gdb.updateCount; rw [e, hr]
      rw [hu]
      have hl : Dict.get? l h = none := (Dict.get?_eq_none_iff _ _).2 (e ▸ hn.1)
      have := ih (Dict.set g h { r with uniqueNodes := p.2.unique, redundantNodes := p.2.redundants, redundantHits := p.2.hits })
        _ hn.2 (Dict.get?_set_self _ _ _)
      rw [hl] at this
      rw [this, if_pos e]
    · rw [if_neg (by simpa [eq_comm] using e)]
      unfold Gdb.updateCount
      cases hg : Dict.get? g p.1 with
      | none => exact ih _ r hn.2 hr
      | some r2 => exact ih _ r hn.2 (by simp only; rw [Dict.get?_set_ne _ _ e, hr])

theorem updateTimes_get {h : H} : ∀ (l : Dict H Nat) (g : Gdb H) (r : Row H), l.keys.Nodup → Dict.get? g h = some r →
    Dict.get? (l.foldl (fun g p => Gdb.updateRedundantTimes g p.2 p.1) g) h =
      some { r with redundantTimes := r.redundantTimes + hitsAt l h } := by
  intro l
  induction l with
  | nil => intro g r _ hr; simpa [hitsAt] using hr
  | cons p l ih =>
    intro g r hn hr
    rw [Dict.keys_cons, List.nodup_cons] at hn
    rw [List.foldl_cons]
    by_cases e : p.1 = h
    · have hu : Gdb.updateRedundantTimes g p.2 p.1 = Dict.set g h { r with redundantTimes := r.redundantTimes + p.2 } := by
        unfold Gdb.updateRedundantTimes; rw [e, hr]
      rw [hu]
      have hl : Dict.get? l h = none := (Dict.get?_eq_none_iff _ _).2 (e ▸ hn.1)
      have := ih (Dict.set g h { r with redundantTimes := r.redundantTimes + p.2 }) _ hn.2 (Dict.get?_set_self _ _ _)
      rw [this]
      simp [hitsAt, hl, e]
    · have hl : hitsAt (p :: l) h = hitsAt l h := by
        unfold hitsAt
        rw [Dict.get?_cons, if_neg (by simpa [eq_comm] using e)]
      rw [hl]
      unfold Gdb.updateRedundantTimes
      cases hg : Dict.get? g p.1 with
      | none => exact ih _ r hn.2 hr
      | some r2 => exact ih _ r hn.2 (by simp only; rw [Dict.get?_set_ne _ _ e, hr])

/-- What the saved row of a node with statistics `st` is. -/
theorem save_get {g : Gdb H} {stats : Dict H NodeStats} {red : Dict H Nat} (hn : stats.keys.Nodup) (hn2 : red.keys.Nodup)
    {h : H} {r : Row H} (hr : Dict.get? g h = some r) {st : NodeStats} (hst : Dict.get? stats h = some st) :
    Dict.get? (saveInGlobalDb g stats red) h = some { r with
      uniqueNodes := st.unique, redundantNodes := st.redundants, redundantHits := st.hits,
      redundantTimes := r.redundantTimes + hitsAt red h } := by
  have h1 := updateCounts_get stats g r hn hr
  rw [hst] at h1
  unfold saveInGlobalDb
  rw [updateTimes_get red _ _ hn2 h1]

theorem stats_keys_nodup {nc : Dict H (List H)} {root : H} {stats : Dict H NodeStats}
    {red : Dict H Nat} (h : constructGraphStats root nc = pure (stats, red)) : stats.keys.Nodup := by
  have key : ∀ (ks : List H) (acc acc' : Dict H NodeStats × Dict H Nat), acc.1.keys.Nodup →
      ks.foldlM (fun acc n => do
        let (s, red) ← nodeStats nc n
        pure (acc.1.set n s, if n = root then red else acc.2)) acc = pure acc' →
      acc'.1.keys.Nodup := by
    intro ks
    induction ks with
    | nil =>
      intro acc acc' h1 h3
      have := (M.pure_inj _ _).1 h3
      subst this
      exact h1
    | cons k ks ih =>
      intro acc acc' h1 h3
      rw [List.foldlM_cons] at h3
      obtain ⟨acc1, e1, h3⟩ := M.bind_eq_pure.1 h3
      obtain ⟨⟨s, r⟩, _, e1⟩ := M.bind_eq_pure.1 e1
      have := (M.pure_inj _ _).1 e1
      subst this
      exact ih _ _ (Dict.nodup_keys_set _ _ _ h1) h3
  exact key nc.keys ([], []) (stats, red) (by simp) h

/-- The redundant hits of the root's traversal. -/
theorem root_red {nc : Dict H (List H)} (hc : ClosedGraph nc) (hnd : nc.keys.Nodup) {root : H} (hm : root ∈ nc.keys)
    {stats : Dict H NodeStats} {red : Dict H Nat} (h : constructGraphStats root nc = pure (stats, red)) :
    red.keys.Nodup ∧ ∃ V, Enumerates nc root V ∧ ∀ k, hitsAt red k + V.count k = [root].count k + edgesInto nc V k := by
  obtain ⟨stats', red', e, hall⟩ := constructGraphStats_ok hc hnd root
  have := (M.pure_inj _ _).1 (h.symm.trans e)
  cases this
  obtain ⟨s, r, V, _, h2, h3, _, _, h6⟩ := hall root hm
  obtain rfl := h6 rfl
  obtain ⟨st, k1, k2, k3, k4, k5, k6⟩ := subgraphStats_spec hc hm
  unfold nodeStats at h2
  rw [k1, M.pure_bind] at h2
  have := (M.pure_inj _ _).1 h2
  simp only [Prod.mk.injEq] at this
  rw [← this.2]
  exact ⟨k3, _, k2, k6⟩

theorem kidsAt_edgesOf (rep : Report H) (x : H) : kidsAt rep.nodesChildren x = edgesOf rep x := rfl

/-- **C47** What the global table keeps.  After a run with statistics on a table that had none of its nodes, the row of
every recorded node carries the figures of the graph below that node: with `V` the nodes reachable from it, the number of
unique nodes is the size of `V`, the number of redundant nodes is how many nodes of `V` are entered by two or more edges, the
redundant hits are the edges that do not lead to a new node; and the times it was met again in the whole graph is the number of
edges into it but one.  Every recorded node has a row, unless the run was cut short by `-e`; the input itself has one anyway. -/
theorem C47_stored_counts {env : EnvChoice} (ho : OneProcess a env) (hst : a.noStats = false) {g : Gdb H} {F : Cnf}
    (hF : Proper F) (hne : F ≠ []) {root : SetObj H} (h : Input F root) (hcoll : NoCollisions hash (loc a) root)
    (hfresh : FreshFor hash a root g) :
    ∃ rep, solveSet hash a env g root = pure rep ∧
      (∀ x ∈ rep.nodesChildren.keys, ∀ r, Dict.get? rep.gdb x = some r → ∃ V, Lists rep x V ∧
        r.uniqueNodes = V.length ∧ r.redundantNodes = (V.filter fun y => decide (2 ≤ inDegree rep V y)).length ∧
        r.redundantHits + (V.length - 1) = (V.map fun y => (edgesOf rep y).length).sum ∧
        r.redundantTimes = inDegree rep rep.nodesChildren.keys x - 1) ∧
      (Complete a rep → ∀ x ∈ rep.nodesChildren.keys, x ∈ Dict.keys rep.gdb) ∧
      (∃ N0 r, NormalForm a.mode F N0 ∧ hash (textOf N0) ∈ rep.nodesChildren.keys ∧
        Dict.get? rep.gdb (hash (textOf N0)) = some r ∧
        rep.uniques = r.uniqueNodes ∧ rep.redundants = r.redundantNodes ∧ rep.redundantHits = r.redundantHits) := by
  obtain ⟨s, ps, g', rep, repl, hs, hr, hsat', h1, h4, hres, e1, e2, e3, e4, e5, _, e6, e7⟩ := fresh_run hash ho hF hne h hfresh
  obtain ⟨stats, red, hcg, hg⟩ := e6 hst
  obtain ⟨f1, f2⟩ := e7 hst stats red hcg
  obtain ⟨k1, k2⟩ := C18_stats_exact (hash := hash) (local_loc a) hst (fun _ => ho.conn) hF hne h hcoll e2
  obtain ⟨hrnd, V0, hV0, hred⟩ := root_red hres.graph.closed hres.graph.nd hres.graph.rootMem hcg
  have hsn := stats_keys_nodup hcg
  have n1 : repl.nodesChildren = rep.nodesChildren := by rw [e3]
  have n2 : repl.stats = stats := by rw [e3]; exact f2
  have n3 : ∀ x V, Lists repl x V → Lists rep x V := by
    intro x V hV
    have : IsEdge repl = IsEdge rep := by unfold IsEdge; rw [n1]
    unfold Lists at hV ⊢
    rw [this] at hV; exact hV
  have n4 : ∀ V y, inDegree repl V y = inDegree rep V y := by
    intro V y; unfold inDegree edgesOf; rw [n1]
  have n5 : ∀ y, edgesOf repl y = edgesOf rep y := by intro y; unfold edgesOf; rw [n1]
  obtain ⟨s', ps', hs', hr', hres', hrep', hnf, hreach, _⟩ := solveSet_graph (ha := local_loc a) (fun _ => ho.conn) hF hne h e2
  have hss : s' = s := by
    have hs2 : prepareRoot hash a root = pure (s', hid hash s') := hs'
    exact congrArg Prod.fst ((M.pure_inj _ _).1 (hs2.symm.trans hs))
  subst hss
  have n6 : ps'.nodesChildren = ps.nodesChildren := by rw [← hrep'.nodesChildren, n1, f1]
  have hre : ∀ k ∈ ps.nodesChildren.keys, Reach ps.nodesChildren (hid hash s') k := by
    have := hreach (maxThreads_one (loc a) ho.threads _)
    rwa [n6] at this
  obtain ⟨rank, hrk⟩ := graph_rank hF hr.tracks (hcoll s' _ hs) hres.graph
  have hkid : (fun x y => y ∈ kidsAt ps.nodesChildren x) = Edge ps.nodesChildren := by
    funext x y
    unfold kidsAt Edge
    apply propext
    cases ps.nodesChildren.get? x <;> simp
  have hsub : ∀ k, Relation.ReflTransGen (Edge ps.nodesChildren) (hid hash s') k → k ∈ ps.nodesChildren.keys := by
    intro k hk
    induction hk with
    | refl => exact hres.graph.rootMem
    | tail _ hl ih => obtain ⟨ks, h1, h2⟩ := hl; exact hres.graph.closed _ _ _ h1 h2
  have hperm : V0.Perm ps.nodesChildren.keys := by
    rw [List.perm_ext_iff_of_nodup hV0.1 hres.graph.nd]
    intro k
    rw [hV0.2, hkid]
    exact ⟨hsub k, hre k⟩
  have hrank : ∀ x k, Relation.ReflTransGen (Edge ps.nodesChildren) x k → rank k ≤ rank x := by
    intro x k hk
    induction hk with
    | refl => exact Nat.le_refl _
    | tail _ hl ih => obtain ⟨ks, h1, h2⟩ := hl; exact Nat.le_trans (Nat.le_of_lt (hrk _ _ _ h1 h2)) ih
  have htimes : ∀ x ∈ rep.nodesChildren.keys, hitsAt red x = inDegree rep rep.nodesChildren.keys x - 1 := by
    intro x hx
    rw [f1] at hx
    have hc := hred x
    have hm : x ∈ V0 := hperm.mem_iff.2 hx
    rw [List.count_eq_one_of_mem hV0.1 hm] at hc
    have he : edgesInto ps.nodesChildren V0 x = inDegree rep rep.nodesChildren.keys x := by
      rw [f1]
      unfold edgesInto inDegree edgesOf
      rw [f1]
      exact (hperm.map _).sum_eq
    rw [← he]
    by_cases e : x = hid hash s'
    · have : edgesInto ps.nodesChildren V0 x = 0 := by
        apply edgesInto_eq_zero
        intro y hy hxy
        have h2 := hrank _ _ (hre y (hperm.mem_iff.1 hy))
        unfold kidsAt at hxy
        cases hg2 : ps.nodesChildren.get? y with
        | none => rw [hg2] at hxy; simp at hxy
        | some ks =>
          rw [hg2] at hxy
          have := hrk y ks x hg2 hxy
          rw [e] at this
          omega
      rw [e] at hc this ⊢
      simp at hc
      omega
    · have : [hid hash s'].count x = 0 := List.count_eq_zero.2 (by simpa using e)
      omega
  have hbig : ∀ x ∈ rep.nodesChildren.keys, ∀ r', Dict.get? g' x = some r' → ∃ st, Dict.get? stats x = some st ∧
      Dict.get? rep.gdb x = some { r' with
        uniqueNodes := st.unique, redundantNodes := st.redundants,
        redundantHits := st.hits, redundantTimes := inDegree rep rep.nodesChildren.keys x - 1 } := by
    intro x hx r' hr'
    obtain ⟨st, V, q1, _⟩ := k1 x (by rw [n1]; exact hx)
    rw [n2] at q1
    refine ⟨st, q1, ?_⟩
    rw [hg, save_get hsn hrnd hr' q1]
    have h0 : r'.redundantTimes = 0 := by
      rcases h4.marks _ (Dict.mem_of_get? hr') with hm | hm
      · exfalso
        rw [f1] at hx
        obtain ⟨ks, hks⟩ := Dict.exists_get?_of_mem hx
        obtain ⟨t, ht, hxt, _⟩ := hres.graph.node x ks hks
        exact hfresh s' _ hs t ht (hxt ▸ List.mem_map.2 ⟨_, hm, rfl⟩)
      · exact hm.2
    rw [h0, Nat.zero_add, htimes x hx]
  refine ⟨rep, e1, ?_, ?_, ?_⟩
  · intro x hx r hxr
    have hxg : x ∈ Dict.keys g' := by
      by_contra hn
      rw [hg] at hxr
      obtain ⟨r2, hr2, _⟩ := (same_save g' stats red).symm.get hxr
      exact hn (Dict.mem_keys_of_get? hr2)
    obtain ⟨r', hr'⟩ := Dict.exists_get?_of_mem hxg
    obtain ⟨st, q1, q2⟩ := hbig x hx r' hr'
    rw [hxr] at q2
    obtain ⟨st', V, p1, p2, p3, p4, p5⟩ := k1 x (by rw [n1]; exact hx)
    rw [n2, q1] at p1
    cases p1
    have := Option.some.inj q2
    subst this
    refine ⟨V, n3 x V p2, p3, ?_, ?_, rfl⟩
    · simp only [n4] at p4; exact p4
    · simp only [n5] at p5; exact p5
  · intro hc x hx
    have : x ∈ Dict.keys g' := by
      refine h4.rows ?_ x (by rw [← f1]; exact hx)
      unfold Complete at hc
      rwa [e4] at hc
    obtain ⟨r', hr'⟩ := Dict.exists_get?_of_mem this
    obtain ⟨st, _, q2⟩ := hbig x hx r' hr'
    exact Dict.mem_keys_of_get? q2
  · obtain ⟨red2, _, st0, p1, p2, p3, p4⟩ := hrep'.stats hst
    obtain ⟨r0, hr0, _⟩ := h4.root
    have hm : hid hash s' ∈ rep.nodesChildren.keys := by rw [f1]; exact hres.graph.rootMem
    obtain ⟨st, q1, q2⟩ := hbig _ hm r0 hr0
    rw [n2, q1] at p1
    cases p1
    have ht : hid hash s' = hash (textOf (raws s'.clauses)) := by
      rw [← bodyStr_text hr.tracks.node.cne]; rfl
    rw [ht] at hm q2
    obtain ⟨ρ, c1, c2⟩ := hnf.rename
    refine ⟨raws s'.clauses, _, ⟨⟨ρ, c1, c2.trans h.same⟩, hnf.vars, hnf.asc, hnf.lead⟩, hm, q2, ?_, ?_, ?_⟩
    · rw [← p2, e3]
    · rw [← p3, e3]
    · rw [← p4, e3]

/-- A run that finds its input solved in the table reports the figures of the row, and an empty graph. -/
theorem solveSet_solved_counts {env : EnvChoice} (hg : a.useGlobalDb = true) (g : Gdb H) {R : Cnf} {root : SetObj H} (h : Loaded R root)
    {s : SetObj H} (hs : prepareRoot hash a root = pure (s, hid hash s)) {r : Row H} (hr : Dict.get? g (hid hash s) = some r)
    (hu : r.uniqueNodes ≠ 0) (hn : r.numClauses ≤ s.clauses.length) :
    solveSet hash a env g root = pure {
      isSat := false, solution := none, nodesChildren := [],
      uniques := r.uniqueNodes, redundants := r.redundantNodes, redundantHits := r.redundantHits, foundInGdb := 1, gdb := g, stats := [] } := by
  have ht : root.toStr = pure (bodyStr root.clauses) := toStr_ok h.value h.ne
  have h1 : (if a.gdbNoMem = true then g.isSolved (hid hash s) else
      decide (hid hash s ∈ if (true && !a.gdbNoMem) = true then g.loadSolved s.clauses.length else [])) = true := by
    by_cases hm : a.gdbNoMem = true
    · rw [if_pos hm]
      unfold Gdb.isSolved
      rw [hr]
      simpa using hu
    · rw [if_neg hm]
      have hm : a.gdbNoMem = false := by simpa using hm
      simp only [hm, Bool.not_false, Bool.and_self, if_true, decide_eq_true_eq, mem_loadSolved]
      exact ⟨r, Dict.mem_of_get? hr, hn, by omega⟩
  unfold solveSet
  simp only [ht, hs, M.pure_bind, hg, h1, Bool.not_true, Bool.false_eq_true, if_false]
  have : g.getSetData (hid hash s) = some r := hr
  rw [this]

/-- **C47** The figures reported from the table.  A later run of the same input on the table left by the first run reports the same
number of unique nodes (`-qn`), redundant subtrees and redundant hits, says that one node was found in the table, and leaves the table
as it is.  But the graph it holds is empty, so the line "Number of unique nodes", which counts the nodes in memory, says 0, while the
first run printed a positive number: that line is wrong. -/
theorem C47_rerun_counts_partial {env : EnvChoice} (ho : OneProcess a env) (hst : a.noStats = false) {g : Gdb H} {F : Cnf}
    (hF : Proper F) (hne : F ≠ []) {root : SetObj H} (h : Input F root) (hfresh : FreshFor hash a root g) :
    ∃ rep, solveSet hash a env g root = pure rep ∧ 0 < rep.nodesChildren.length ∧
      ∀ env2, ∃ rep2, solveSet hash a env2 rep.gdb root = pure rep2 ∧ rep2.uniques = rep.uniques ∧
        rep2.redundants = rep.redundants ∧ rep2.redundantHits = rep.redundantHits ∧ rep2.foundInGdb = 1 ∧ rep2.gdb = rep.gdb ∧
        rep2.nodesChildren.length = 0 := by
  obtain ⟨s, ps, g', rep, repl, hs, hr, hsat', h1, h4, hres, e1, e2, e3, e4, e5, _, e6, e7⟩ := fresh_run hash ho hF hne h hfresh
  obtain ⟨stats, red, hcg, hg⟩ := e6 hst
  obtain ⟨f1, f2⟩ := e7 hst stats red hcg
  obtain ⟨r, hr1, hr2⟩ := h4.root
  obtain ⟨hrnd, _⟩ := root_red hres.graph.closed hres.graph.nd hres.graph.rootMem hcg
  have hsn := stats_keys_nodup hcg
  obtain ⟨s', ps', hs', hr', hres', hrep', _⟩ := solveSet_graph (ha := local_loc a) (fun _ => ho.conn) hF hne h e2
  have hss : s' = s := by
    have hs2 : prepareRoot hash a root = pure (s', hid hash s') := hs'
    exact congrArg Prod.fst ((M.pure_inj _ _).1 (hs2.symm.trans hs))
  subst hss
  obtain ⟨red2, _, st0, p1, p2, p3, p4⟩ := hrep'.stats hst
  have n2 : repl.stats = stats := by rw [e3]; exact f2
  rw [n2] at p1
  have hsave := save_get (red := red) hsn hrnd hr1 p1
  rw [← hg] at hsave
  have hpos : 1 ≤ st0.unique := stats_pos hres.graph.closed hres.graph.nd hcg _ (Dict.mem_of_get? p1)
  refine ⟨rep, e1, ?_, fun env2 => ⟨_, solveSet_solved_counts hash ho.gdb rep.gdb (h.loaded hF hne) hs hsave
    (by show st0.unique ≠ 0; omega) (by show r.numClauses ≤ _; omega), ?_, ?_, ?_, rfl, rfl, rfl⟩⟩
  · rw [f1, ← Dict.length_keys]
    exact List.length_pos_of_mem hres.graph.rootMem
  · show st0.unique = rep.uniques; rw [← p2, e3]
  · show st0.redundants = rep.redundants; rw [← p3, e3]
  · show st0.hits = rep.redundantHits; rw [← p4, e3]

/-- The hypotheses are met: a satisfiable formula of three clauses, `-gdb`, the empty table, a digest without collisions. -/
example : OneProcess { useGlobalDb := true } {} ∧ Proper [[1, 2, 3], [-1, 2], [-2, -3]] ∧
    Input [[1, 2, 3], [-1, 2], [-2, -3]] (mkSet (H := Str) [[1, 2, 3], [-1, 2], [-2, -3]]) ∧
    NoCollisions (fun s : Str => s) (loc { useGlobalDb := true }) (mkSet [[1, 2, 3], [-1, 2], [-2, -3]]) ∧
    FreshFor (fun s : Str => s) { useGlobalDb := true } (mkSet [[1, 2, 3], [-1, 2], [-2, -3]]) [] := by
  have hp : Proper [[1, 2, 3], [-1, 2], [-2, -3]] := by simp [Proper]
  have hI : Input [[1, 2, 3], [-1, 2], [-2, -3]] (mkSet (H := Str) [[1, 2, 3], [-1, 2], [-2, -3]]) := input_mkSet hp (by simp)
  exact ⟨⟨rfl, rfl, rfl⟩, hp, hI, noCollisions_of_injective (fun _ _ h => h) _ hI hp (by simp), freshFor_nil _ _⟩

end NDP
