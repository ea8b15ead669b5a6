import Verif.Cnfgen.SubsetCard
import Mathlib.Data.Set.Function
/-
  C63: `families/graphisomorphism.py`.
-/
namespace NDP.Cnfgen
open NDP

/-! ### Model -/

/-- `families/graphisomorphism.py` 18-20 (`_graph_isomorphism_var`). -/
def isoVar (u v : Nat) : Str := fmt2 ['x'] u v

/-- `families/graphisomorphism.py` 49-50: the variables. -/
def isoVars (g1 g2 : Graph) : List Str := g1.verts.flatMap fun u => g2.verts.map fun v => isoVar u v

/-- `families/graphisomorphism.py` 52-67: a one-to-one map. -/
def isoMap (U V : List Nat) : List (List (Lit Str)) :=
  (U.map fun u => V.map fun v => (true, isoVar u v)) ++
  (V.map fun v => U.map fun u => (true, isoVar u v)) ++
  (U.flatMap fun u => (pairs V).map fun p => [(false, isoVar u p.1), (false, isoVar u p.2)]) ++
  (V.flatMap fun v => (pairs U).map fun p => [(false, isoVar p.1 v), (false, isoVar p.2 v)])

/-- `families/graphisomorphism.py` 69-76: edges. -/
def isoEdges (g1 g2 : Graph) : List (List (Lit Str)) :=
  (pairs g1.verts).flatMap fun p => (pairs g2.verts).flatMap fun q =>
    if g1.hasEdge p.1 p.2 ≠ g2.hasEdge q.1 q.2 then
      [[(false, isoVar p.1 q.1), (false, isoVar p.2 q.2)], [(false, isoVar p.1 q.2), (false, isoVar p.2 q.1)]]
    else []

/-- `families/graphisomorphism.py` 22-78 (`GraphIsomorphism`). -/
def graphIsomorphism (g1 g2 : Graph) : M (CNF Str) :=
  CNF.ofPartsStrict (isoVars g1 g2) (isoMap g1.verts g2.verts ++ isoEdges g1 g2)

/-- `families/graphisomorphism.py` 80-107 (`GraphAutomorphism`). -/
def graphAutomorphism (g : Graph) : M (CNF Str) := do
  let F ← graphIsomorphism g g
  F.addClause true (g.verts.map fun u => (false, isoVar u u))

/-! ### Specification -/

/-- `f` is an isomorphism: a bijection of the vertices that keeps edges and non-edges. -/
def Graph.IsIso (g1 g2 : Graph) (f : Nat → Nat) : Prop :=
  Set.BijOn f {v | v ∈ g1.verts} {v | v ∈ g2.verts} ∧
    ∀ u ∈ g1.verts, ∀ v ∈ g1.verts, (g1.hasEdge u v = true ↔ g2.hasEdge (f u) (f v) = true)

/-! ### Proof -/

theorem isoVar_inj {u v u' v' : Nat} (h : isoVar u v = isoVar u' v') : u = u' ∧ v = v' := fmt2_inj h

theorem iso_ok {g1 g2 : Graph} (h1 : g1.Wf) (h2 : g2.Wf) :
    ∀ c ∈ isoMap g1.verts g2.verts ++ isoEdges g1 g2, (c.map Prod.snd).Nodup ∧ ∀ l ∈ c, l.2 ∈ isoVars g1 g2 := by
  have hv : ∀ {u v}, u ∈ g1.verts → v ∈ g2.verts → isoVar u v ∈ isoVars g1 g2 := fun a b =>
    List.mem_flatMap.2 ⟨_, a, List.mem_map.2 ⟨_, b, rfl⟩⟩
  intro c hc
  unfold isoMap isoEdges at hc
  simp only [List.mem_append] at hc
  rcases hc with (((hc | hc) | hc) | hc) | hc
  · obtain ⟨u, hu, rfl⟩ := List.mem_map.1 hc
    refine ⟨?_, fun l hl => ?_⟩
    · rw [List.map_map]; exact List.Nodup.map (fun a b e => (isoVar_inj e).2) h2.verts_nodup
    · obtain ⟨v, hv', rfl⟩ := List.mem_map.1 hl; exact hv hu hv'
  · obtain ⟨v, hv', rfl⟩ := List.mem_map.1 hc
    refine ⟨?_, fun l hl => ?_⟩
    · rw [List.map_map]; exact List.Nodup.map (fun a b e => (isoVar_inj e).1) h1.verts_nodup
    · obtain ⟨u, hu, rfl⟩ := List.mem_map.1 hl; exact hv hu hv'
  · obtain ⟨u, hu, hc⟩ := List.mem_flatMap.1 hc
    obtain ⟨⟨a, b⟩, hp, rfl⟩ := List.mem_map.1 hc
    obtain ⟨ha, hb, hlt⟩ := (mem_pairs_sorted h2.sorted).1 hp
    refine ⟨nodup2 fun e => ?_, ?_⟩
    · have := (isoVar_inj e).2; simp at this; omega
    · simp only [List.mem_cons, List.not_mem_nil, or_false, forall_eq_or_imp, forall_eq]
      exact ⟨hv hu ha, hv hu hb⟩
  · obtain ⟨v, hv', hc⟩ := List.mem_flatMap.1 hc
    obtain ⟨⟨a, b⟩, hp, rfl⟩ := List.mem_map.1 hc
    obtain ⟨ha, hb, hlt⟩ := (mem_pairs_sorted h1.sorted).1 hp
    refine ⟨nodup2 fun e => ?_, ?_⟩
    · have := (isoVar_inj e).1; simp at this; omega
    · simp only [List.mem_cons, List.not_mem_nil, or_false, forall_eq_or_imp, forall_eq]
      exact ⟨hv ha hv', hv hb hv'⟩
  · obtain ⟨⟨a, b⟩, hp, hc⟩ := List.mem_flatMap.1 hc
    obtain ⟨⟨x, y⟩, hq, hc⟩ := List.mem_flatMap.1 hc
    obtain ⟨ha, hb, hlt⟩ := (mem_pairs_sorted h1.sorted).1 hp
    obtain ⟨hx, hy, hlt'⟩ := (mem_pairs_sorted h2.sorted).1 hq
    split at hc
    · simp only [List.mem_cons, List.not_mem_nil, or_false] at hc
      rcases hc with rfl | rfl
      · refine ⟨nodup2 fun e => ?_, ?_⟩
        · have := (isoVar_inj e).1; omega
        · simp only [List.mem_cons, List.not_mem_nil, or_false, forall_eq_or_imp, forall_eq]
          exact ⟨hv ha hx, hv hb hy⟩
      · refine ⟨nodup2 fun e => ?_, ?_⟩
        · have := (isoVar_inj e).1; omega
        · simp only [List.mem_cons, List.not_mem_nil, or_false, forall_eq_or_imp, forall_eq]
          exact ⟨hv ha hy, hv hb hx⟩
    · simp at hc

/-- The clauses say that the variables describe an isomorphism. -/
theorem iso_true {g1 g2 : Graph} (h1 : g1.Wf) (h2 : g2.Wf) (α : Str → Bool) :
    AllTrue α (isoMap g1.verts g2.verts ++ isoEdges g1 g2) ↔
      ∃ f : Nat → Nat, g1.IsIso g2 f ∧ ∀ u ∈ g1.verts, ∀ v ∈ g2.verts, (α (isoVar u v) = true ↔ v = f u) := by
  constructor
  · intro h
    unfold isoMap at h
    simp only [allTrue_append] at h
    obtain ⟨⟨⟨⟨a, b⟩, c⟩, d⟩, e⟩ := h
    have a' : ∀ u ∈ g1.verts, ∃ v ∈ g2.verts, α (isoVar u v) = true := by
      intro u hu
      obtain ⟨l, hl, ht⟩ := (allTrue_map α _ _).1 a u hu
      obtain ⟨v, hv, rfl⟩ := List.mem_map.1 hl
      exact ⟨v, hv, ht⟩
    have b' : ∀ v ∈ g2.verts, ∃ u ∈ g1.verts, α (isoVar u v) = true := by
      intro v hv
      obtain ⟨l, hl, ht⟩ := (allTrue_map α _ _).1 b v hv
      obtain ⟨u, hu, rfl⟩ := List.mem_map.1 hl
      exact ⟨u, hu, ht⟩
    have c' : ∀ u ∈ g1.verts, ∀ v ∈ g2.verts, ∀ w ∈ g2.verts, α (isoVar u v) = true → α (isoVar u w) = true → v = w := by
      intro u hu v hv w hw e1 e2
      simp only [allTrue_flatMap, allTrue_map, Prod.forall, mem_pairs_sorted h2.sorted] at c
      by_contra hne
      rcases Nat.lt_or_gt_of_ne hne with h | h
      · have := c u hu v w ⟨hv, hw, h⟩; simp [clauseTrue_cons, clauseTrue_nil, e1, e2] at this
      · have := c u hu w v ⟨hw, hv, h⟩; simp [clauseTrue_cons, clauseTrue_nil, e1, e2] at this
    have d' : ∀ v ∈ g2.verts, ∀ u ∈ g1.verts, ∀ w ∈ g1.verts, α (isoVar u v) = true → α (isoVar w v) = true → u = w := by
      intro v hv u hu w hw e1 e2
      simp only [allTrue_flatMap, allTrue_map, Prod.forall, mem_pairs_sorted h1.sorted] at d
      by_contra hne
      rcases Nat.lt_or_gt_of_ne hne with h | h
      · have := d v hv u w ⟨hu, hw, h⟩; simp [clauseTrue_cons, clauseTrue_nil, e1, e2] at this
      · have := d v hv w u ⟨hw, hu, h⟩; simp [clauseTrue_cons, clauseTrue_nil, e1, e2] at this
    choose! f hf using a'
    refine ⟨f, ⟨⟨fun u hu => (hf u hu).1, fun u hu w hw e => ?_, fun v hv => ?_⟩, ?_⟩, fun u hu v hv => ?_⟩
    · exact d' (f u) (hf u hu).1 u hu w hw (hf u hu).2 (by rw [e]; exact (hf w hw).2)
    · obtain ⟨u, hu, ht⟩ := b' v hv
      exact ⟨u, hu, c' u hu _ (hf u hu).1 v hv (hf u hu).2 ht⟩
    · have key : ∀ u ∈ g1.verts, ∀ w ∈ g1.verts, u < w → g1.hasEdge u w = g2.hasEdge (f u) (f w) := by
        intro u hu w hw hlt
        by_contra hne
        unfold isoEdges at e
        simp only [allTrue_flatMap, Prod.forall, mem_pairs_sorted h1.sorted, mem_pairs_sorted h2.sorted] at e
        have hf' : f u ≠ f w := by
          intro he
          have := d' (f u) (hf u hu).1 u hu w hw (hf u hu).2 (by rw [he]; exact (hf w hw).2)
          omega
        rcases Nat.lt_or_gt_of_ne hf' with h | h
        · have := e u w ⟨hu, hw, hlt⟩ (f u) (f w) ⟨(hf u hu).1, (hf w hw).1, h⟩
          rw [if_pos hne] at this
          simp [allTrue_cons, clauseTrue_cons, clauseTrue_nil, (hf u hu).2, (hf w hw).2] at this
        · have := e u w ⟨hu, hw, hlt⟩ (f w) (f u) ⟨(hf w hw).1, (hf u hu).1, h⟩
          rw [if_pos (by rw [Graph.hasEdge_comm (u := f w)]; exact hne)] at this
          simp [allTrue_cons, clauseTrue_cons, clauseTrue_nil, (hf u hu).2, (hf w hw).2] at this
      intro u hu v hv
      rcases Nat.lt_trichotomy u v with h | h | h
      · rw [key u hu v hv h]
      · subst h
        exact ⟨fun he => absurd rfl (h1.hasEdge_ne he), fun he => absurd rfl (h2.hasEdge_ne he)⟩
      · rw [Graph.hasEdge_comm, key v hv u hu h, Graph.hasEdge_comm]
    · exact ⟨fun ht => c' u hu v hv _ (hf u hu).1 ht (hf u hu).2, fun e => e ▸ (hf u hu).2⟩
  · rintro ⟨f, ⟨⟨m, i, s⟩, he⟩, ha⟩
    have m : ∀ u ∈ g1.verts, f u ∈ g2.verts := m
    have i : ∀ u ∈ g1.verts, ∀ v ∈ g1.verts, f u = f v → u = v := fun u hu v hv => i hu hv
    unfold isoMap isoEdges
    simp only [allTrue_append]
    refine ⟨⟨⟨⟨?_, ?_⟩, ?_⟩, ?_⟩, ?_⟩
    · rw [allTrue_map]
      exact fun u hu => ⟨(true, isoVar u (f u)), List.mem_map.2 ⟨f u, m u hu, rfl⟩, (ha u hu _ (m u hu)).2 rfl⟩
    · rw [allTrue_map]
      intro v hv
      obtain ⟨u, hu, rfl⟩ := s hv
      exact ⟨(true, isoVar u (f u)), List.mem_map.2 ⟨u, hu, rfl⟩, (ha u hu _ (m u hu)).2 rfl⟩
    · simp only [allTrue_flatMap, allTrue_map, Prod.forall, mem_pairs_sorted h2.sorted, clauseTrue_cons, clauseTrue_nil, or_false]
      rintro u hu v w ⟨hv, hw, hlt⟩
      by_contra hcon
      simp only [not_or, Bool.not_eq_false, ha u hu v hv, ha u hu w hw] at hcon
      omega
    · simp only [allTrue_flatMap, allTrue_map, Prod.forall, mem_pairs_sorted h1.sorted, clauseTrue_cons, clauseTrue_nil, or_false]
      rintro v hv u w ⟨hu, hw, hlt⟩
      by_contra hcon
      simp only [not_or, Bool.not_eq_false, ha u hu v hv, ha w hw v hv] at hcon
      have := i u hu w hw (hcon.1.symm.trans hcon.2)
      omega
    · simp only [allTrue_flatMap, Prod.forall, mem_pairs_sorted h1.sorted, mem_pairs_sorted h2.sorted]
      rintro u w ⟨hu, hw, hlt⟩ x y ⟨hx, hy, hlt'⟩
      split
      · rename_i hne
        simp only [allTrue_cons, allTrue_nil, and_true, clauseTrue_cons, clauseTrue_nil, or_false]
        have := he u hu w hw
        constructor
        · by_contra hcon
          simp only [not_or, Bool.not_eq_false, ha u hu x hx, ha w hw y hy] at hcon
          rw [← hcon.1, ← hcon.2, ← Bool.eq_iff_iff] at this
          exact hne this
        · by_contra hcon
          simp only [not_or, Bool.not_eq_false, ha u hu y hy, ha w hw x hx] at hcon
          rw [← hcon.1, ← hcon.2, ← Bool.eq_iff_iff, Graph.hasEdge_comm (u := y)] at this
          exact hne this
      · exact allTrue_nil α

theorem iso_assign (g1 g2 : Graph) (f : Nat → Nat) :
    ∃ α : Str → Bool, ∀ u ∈ g1.verts, ∀ v ∈ g2.verts, (α (isoVar u v) = true ↔ v = f u) := by
  obtain ⟨α, ha⟩ := exists_fmt2 ['x'] fun u v => v = f u
  exact ⟨α, fun u _ v _ => ha u v⟩

/-- **C63.** The graph isomorphism formula is satisfiable exactly when the two graphs are isomorphic. -/
theorem C63_isomorphism (g1 g2 : Graph) (h1 : g1.Wf) (h2 : g2.Wf) :
    ∃ F, graphIsomorphism g1 g2 = pure F ∧ (Spec.Satisfiable F.clauses ↔ ∃ f, g1.IsIso g2 f) := by
  obtain ⟨F, hF, hc⟩ := CNF.ofPartsStrict_ok (fun c hc => (iso_ok h1 h2 c hc).1) (fun c hc => (iso_ok h1 h2 c hc).2)
  refine ⟨F, hF, ?_⟩
  rw [hc.sat]
  constructor
  · rintro ⟨α, h⟩
    obtain ⟨f, hf, _⟩ := (iso_true h1 h2 α).1 h
    exact ⟨f, hf⟩
  · rintro ⟨f, hf⟩
    obtain ⟨α, ha⟩ := iso_assign g1 g2 f
    exact ⟨α, (iso_true h1 h2 α).2 ⟨f, hf, ha⟩⟩

/-- **C63.** The graph automorphism formula is satisfiable exactly when the graph has an automorphism that moves a vertex. -/
theorem C63_automorphism (g : Graph) (hg : g.Wf) :
    ∃ F, graphAutomorphism g = pure F ∧ (Spec.Satisfiable F.clauses ↔ ∃ f, g.IsIso g f ∧ ∃ v ∈ g.verts, f v ≠ v) := by
  obtain ⟨F, hF, hc⟩ := CNF.ofPartsStrict_ok (fun c hc => (iso_ok hg hg c hc).1) (fun c hc => (iso_ok hg hg c hc).2)
  have hvars : ∀ v ∈ isoVars g g, v ∈ F.vars := by
    intro v hv
    have := CNF.addAll_ok (strict := true) (ds := isoMap g.verts g.verts ++ isoEdges g g) (CNF.coh_empty.addVariables (vs := isoVars g g))
      (fun c hc => (iso_ok hg hg c hc).1) (fun _ c hc l hl => CNF.mem_addVariables.2 (.inr ((iso_ok hg hg c hc).2 l hl)))
    obtain ⟨G, h1, _, h3⟩ := this
    unfold CNF.ofPartsStrict at hF
    rw [hF] at h1
    rw [(M.pure_inj _ _).1 h1]
    exact (h3 v).2 (.inl (CNF.mem_addVariables.2 (.inr hv)))
  obtain ⟨G, hG, hd, _⟩ := CNF.addClause_ok (strict := true) hc (c := g.verts.map fun u => (false, isoVar u u))
    (by rw [List.map_map]; exact List.Nodup.map (fun a b e => (isoVar_inj e).1) hg.verts_nodup)
    (by
      intro _ l hl
      obtain ⟨u, hu, rfl⟩ := List.mem_map.1 hl
      exact hvars _ (List.mem_flatMap.2 ⟨u, hu, List.mem_map.2 ⟨u, hu, rfl⟩⟩))
  refine ⟨G, ?_, ?_⟩
  · unfold graphAutomorphism graphIsomorphism; rw [hF, M.pure_bind, hG]
  rw [hd.sat]
  have hlast : ∀ α : Str → Bool, AllTrue α [g.verts.map fun u => (false, isoVar u u)] ↔ ∃ u ∈ g.verts, ¬ α (isoVar u u) = true := by
    intro α
    rw [allTrue_cons]
    simp only [allTrue_nil, and_true, ClauseTrue, List.mem_map]
    constructor
    · rintro ⟨l, ⟨u, hu, rfl⟩, h⟩; exact ⟨u, hu, by rw [h]; simp⟩
    · rintro ⟨u, hu, h⟩; exact ⟨_, ⟨u, hu, rfl⟩, by simpa using h⟩
  simp only [allTrue_append] at *
  constructor
  · rintro ⟨α, h, hl⟩
    obtain ⟨f, hf, ha⟩ := (iso_true hg hg α).1 (by rw [allTrue_append]; exact h)
    obtain ⟨u, hu, hn⟩ := (hlast α).1 hl
    exact ⟨f, hf, u, hu, fun e => hn ((ha u hu u hu).2 e.symm)⟩
  · rintro ⟨f, hf, u, hu, hn⟩
    obtain ⟨α, ha⟩ := iso_assign g g f
    have := (iso_true hg hg α).2 ⟨f, hf, ha⟩
    rw [allTrue_append] at this
    exact ⟨α, this, (hlast α).2 ⟨u, hu, fun h => hn ((ha u hu u hu).1 h).symm⟩⟩

/-- Two paths of three vertices with different middles are isomorphic; a path and a triangle are not; and a path can be reversed. -/
example : (∃ F, graphIsomorphism ⟨[0, 1, 2], [(0, 1), (1, 2)]⟩ ⟨[0, 1, 2], [(0, 1), (0, 2)]⟩ = pure F ∧ Spec.Satisfiable F.clauses) ∧
    (∃ F, graphIsomorphism ⟨[0, 1, 2], [(0, 1), (1, 2)]⟩ (Graph.complete 3) = pure F ∧ ¬ Spec.Satisfiable F.clauses) ∧
    ∃ F, graphAutomorphism ⟨[0, 1, 2], [(0, 1), (1, 2)]⟩ = pure F ∧ Spec.Satisfiable F.clauses := by
  have w1 : (⟨[0, 1, 2], [(0, 1), (1, 2)]⟩ : Graph).Wf := ⟨by decide, by decide, by decide, by decide⟩
  have w2 : (⟨[0, 1, 2], [(0, 1), (0, 2)]⟩ : Graph).Wf := ⟨by decide, by decide, by decide, by decide⟩
  have w3 : (Graph.complete 3).Wf := ⟨by decide, by decide, by decide, by decide⟩
  obtain ⟨F, a1, a2⟩ := C63_isomorphism _ _ w1 w2
  obtain ⟨G, b1, b2⟩ := C63_isomorphism _ _ w1 w3
  obtain ⟨H, c1, c2⟩ := C63_automorphism _ w1
  refine ⟨⟨F, a1, a2.2 ⟨fun v => if v = 0 then 1 else if v = 1 then 0 else v, ⟨?_, ?_, ?_⟩, by decide⟩⟩, ⟨G, b1, fun h => ?_⟩,
    ⟨H, c1, c2.2 ⟨fun v => 2 - v, ⟨⟨?_, ?_, ?_⟩, by decide⟩, 0, by decide, by decide⟩⟩⟩
  · show ∀ v ∈ [0, 1, 2], _ ∈ [0, 1, 2]; decide
  · intro a ha b hb; revert a b; show ∀ v ∈ [0, 1, 2], ∀ w ∈ [0, 1, 2], _ → _; decide
  · intro v hv; revert v; show ∀ v ∈ [0, 1, 2], ∃ u, u ∈ [0, 1, 2] ∧ _ = v
    intro v hv; simp only [List.mem_cons, List.not_mem_nil, or_false] at hv
    rcases hv with rfl | rfl | rfl
    · exact ⟨1, by decide⟩
    · exact ⟨0, by decide⟩
    · exact ⟨2, by decide⟩
  · obtain ⟨f, ⟨m, i, _⟩, he⟩ := b2.1 h
    have m0 := m (show 0 ∈ [0, 1, 2] by decide)
    have m2 := m (show 2 ∈ [0, 1, 2] by decide)
    have hne : f 0 ≠ f 2 := fun e => absurd (i (show 0 ∈ [0, 1, 2] by decide) (show 2 ∈ [0, 1, 2] by decide) e) (by decide)
    have : ∀ a ∈ (Graph.complete 3).verts, ∀ b ∈ (Graph.complete 3).verts, a ≠ b → (Graph.complete 3).hasEdge a b = true := by decide
    exact absurd ((he 0 (by decide) 2 (by decide)).2 (this _ m0 _ m2 hne)) (by decide)
  · show ∀ v ∈ [0, 1, 2], _ ∈ [0, 1, 2]; decide
  · intro a ha b hb; revert a b; show ∀ v ∈ [0, 1, 2], ∀ w ∈ [0, 1, 2], _ → _; decide
  · intro v hv; revert v; show ∀ v ∈ [0, 1, 2], ∃ u, u ∈ [0, 1, 2] ∧ _ = v
    intro v hv; simp only [List.mem_cons, List.not_mem_nil, or_false] at hv
    rcases hv with rfl | rfl | rfl
    · exact ⟨2, by decide⟩
    · exact ⟨1, by decide⟩
    · exact ⟨0, by decide⟩

end NDP.Cnfgen
