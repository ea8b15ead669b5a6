import Verif.Cnfgen.Tseitin
/-
  Model of `families/coloring.py`, and C54.
-/
namespace NDP.Cnfgen
open NDP

/-- A sequence of `add_clause` calls, each with its `strict` flag. -/
def CNF.addMixed {V : Type} [DecidableEq V] (F : CNF V) (cs : List (Bool × List (Lit V))) : M (CNF V) :=
  cs.foldlM (fun F c => F.addClause c.1 c.2) F

theorem CNF.addMixed_ok {V : Type} [DecidableEq V] {ds : List (Bool × List (Lit V))} : ∀ {F : CNF V} {cs : List (List (Lit V))}, F.Coh cs →
    (∀ c ∈ ds, (c.2.map Prod.snd).Nodup) →
    (∀ pre c post, ds = pre ++ (true, c) :: post → ∀ l ∈ c, l.2 ∈ F.vars ∨ ∃ d ∈ pre, l.2 ∈ d.2.map Prod.snd) →
    ∃ G, F.addMixed ds = pure G ∧ G.Coh (cs ++ ds.map Prod.snd) ∧ ∀ v, v ∈ G.vars ↔ v ∈ F.vars ∨ ∃ c ∈ ds, v ∈ c.2.map Prod.snd := by
  induction ds with
  | nil => intro F cs h _ _; exact ⟨F, rfl, by simpa using h, by simp⟩
  | cons d ds ih =>
    intro F cs h hd hs
    obtain ⟨G, h1, h2, h3⟩ := CNF.addClause_ok (strict := d.1) h (hd d (by simp)) (fun e l hl => by
      have := hs [] d.2 ds (by simp [← e]) l hl
      simpa using this)
    obtain ⟨K, k1, k2, k3⟩ := ih h2 (fun c hc => hd c (by simp [hc])) (by
      intro pre c post e l hl
      rcases hs (d :: pre) c post (by simp [e]) l hl with h | ⟨x, hx, hm⟩
      · exact .inl ((h3 _).2 (.inl h))
      · rcases List.mem_cons.1 hx with rfl | hx
        · exact .inl ((h3 _).2 (.inr hm))
        · exact .inr ⟨x, hx, hm⟩)
    refine ⟨K, ?_, by simpa using k2, fun v => ?_⟩
    · unfold CNF.addMixed at k1 ⊢
      rw [List.foldlM_cons, h1, M.pure_bind, k1]
    · rw [k3, h3]; simp [or_assoc]

/-- `graphs.py` 448-460 (`enumerate_edges`). -/
def Graph.edgeList (g : Graph) : List (Nat × Nat) :=
  isort (fun a b => decide (a.1 < b.1 ∨ (a.1 = b.1 ∧ a.2 < b.2))) g.edges

/-- `families/coloring.py` 62-75: the clauses of one vertex, with the `strict` flag. -/
def colorVertex (colors : List Nat) (functional : Bool) (v : Nat) : List (Bool × List (Lit Str)) :=
  (false, colors.map fun c => (true, xn v c)) ::
  (if functional then (pairs colors).map fun p => (true, [(false, xn v p.1), (false, xn v p.2)]) else [])

/-- `families/coloring.py` 78-82: the clauses of one edge. -/
def colorEdge (colors : List Nat) (e : Nat × Nat) : List (Bool × List (Lit Str)) :=
  colors.map fun c => (true, [(false, xn e.1 c), (false, xn e.2 c)])

/-- `families/coloring.py` 19-84 (`GraphColoringFormula`), with the colors given as a list of numbers (a number `k` of colors is
the list `1..k`, `families/coloring.py` 44-45). -/
def graphColoring (g : Graph) (colors : List Nat) (functional : Bool) : M (CNF Str) :=
  ({} : CNF Str).addMixed (g.verts.flatMap (colorVertex colors functional) ++ g.edgeList.flatMap (colorEdge colors))

/-- `families/coloring.py` 89-145 (`EvenColoringFormula`).  Simplified: the test of the degree, made vertex by vertex in the loop
that adds the clauses, is made before it (no clause of an aborted formula is seen). -/
def evenColoring (g : Graph) : M (CNF Str) :=
  if ∃ v ∈ g.verts, (g.neighbors v).length % 2 = 1 then raise .valueError
  else CNF.ofPartsStrict (g.edgeList.map fun e => edgeName e.1 e.2)
    (g.verts.flatMap fun v => equalTo ((g.neighbors v).map fun u => edgeName u v) ((((g.neighbors v).length / 2 : Nat)) : Int))

theorem mem_edgeList {g : Graph} {e : Nat × Nat} : e ∈ g.edgeList ↔ e ∈ g.edges := by
  unfold Graph.edgeList; rw [mem_isort]

theorem split_mem {A : Type} {l1 l2 pre post : List A} {x : A} (h : l1 ++ l2 = pre ++ x :: post) :
    (∃ s, l1 = pre ++ x :: s) ∨ ∃ s, pre = l1 ++ s ∧ l2 = s ++ x :: post := by
  rcases List.append_eq_append_iff.1 h with ⟨a, h1, h2⟩ | ⟨a, h1, h2⟩
  · exact .inr ⟨a, h1, h2⟩
  · cases a with
    | nil => exact .inr ⟨[], by simpa using h1.symm, by simpa using h2.symm⟩
    | cons y a =>
      simp only [List.cons_append, List.cons.injEq] at h2
      exact .inl ⟨a, by rw [h1, h2.1]⟩

/-- **C54.** The coloring formula is satisfiable exactly when the graph can be colored: one of the colors for each vertex,
different for the two ends of each edge. -/
theorem C54_coloring (g : Graph) (hg : g.Wf) (colors : List Nat) (hcol : colors.Nodup) (functional : Bool) :
    ∃ F, graphColoring g colors functional = pure F ∧ (Spec.Satisfiable F.clauses ↔
      ∃ f : Nat → Nat, (∀ v ∈ g.verts, f v ∈ colors) ∧ ∀ e ∈ g.edges, f e.1 ≠ f e.2) := by
  obtain ⟨F, hF, hc, _⟩ := CNF.addMixed_ok (ds := g.verts.flatMap (colorVertex colors functional) ++ g.edgeList.flatMap (colorEdge colors))
    CNF.coh_empty
    (by
      intro c hc
      rcases List.mem_append.1 hc with hc | hc
      · obtain ⟨v, hv, hc⟩ := List.mem_flatMap.1 hc
        unfold colorVertex at hc
        rcases List.mem_cons.1 hc with rfl | hc
        · rw [List.map_map]
          exact nodup_map_on hcol fun a _ b _ e => (xn_inj e).2
        · cases functional with
          | false => simp at hc
          | true =>
            simp only [if_true, List.mem_map, Prod.exists] at hc
            obtain ⟨a, b, hp, rfl⟩ := hc
            have hs := (mem_pairs.1 hp).nodup hcol
            have : a ≠ b := by simpa using hs
            have e1 : xn v a ≠ xn v b := fun e => this (xn_inj e).2
            simp [e1]
      · obtain ⟨e, he, hc⟩ := List.mem_flatMap.1 hc
        obtain ⟨x, _, rfl⟩ := List.mem_map.1 hc
        have e1 : xn e.1 x ≠ xn e.2 x := fun h => (hg.ends e (mem_edgeList.1 he)).2.2 (xn_inj h).1
        simp [e1])
    (by
      intro pre c post e l hl
      right
      -- the literal's variable is in the first clause of its vertex
      have hfirst : ∀ v x, v ∈ g.verts → x ∈ colors → xn v x ∈ ((false, colors.map fun c => ((true, xn v c) : Lit Str)) : Bool × List (Lit Str)).2.map Prod.snd := by
        intro v x _ hx
        simp only [List.map_map]
        exact List.mem_map.2 ⟨x, hx, rfl⟩
      rcases split_mem e with ⟨s, hs⟩ | ⟨s, hs1, hs2⟩
      · -- within the vertices
        clear e
        have key : ∀ (vs : List Nat) (pre : List (Bool × List (Lit Str))) s, vs.flatMap (colorVertex colors functional) = pre ++ (true, c) :: s →
            ∃ d ∈ pre, l.2 ∈ d.2.map Prod.snd := by
          intro vs
          induction vs with
          | nil => intro pre s h; simp at h
          | cons v vs ih =>
            intro pre s h
            rw [List.flatMap_cons] at h
            rcases split_mem h with ⟨t, ht⟩ | ⟨t, ht1, ht2⟩
            · unfold colorVertex at ht
              cases pre with
              | nil => simp at ht
              | cons d pre =>
                simp only [List.cons_append, List.cons.injEq] at ht
                refine ⟨d, by simp, ?_⟩
                cases functional with
                | false => simp at ht
                | true =>
                  have hm : (true, c) ∈ ((pairs colors).map fun p => ((true, [(false, xn v p.1), (false, xn v p.2)]) : Bool × List (Lit Str))) := by
                    have := ht.2
                    simp only [if_true] at this
                    rw [this]; simp
                  simp only [List.mem_map, Prod.mk.injEq, true_and, Prod.exists] at hm
                  obtain ⟨a, b, hp, rfl⟩ := hm
                  have hab := mem_pairs.1 hp
                  rw [← ht.1]
                  simp only [List.mem_cons, List.not_mem_nil, or_false] at hl
                  simp only [List.map_map]
                  rcases hl with rfl | rfl
                  · exact List.mem_map.2 ⟨a, hab.subset (by simp), rfl⟩
                  · exact List.mem_map.2 ⟨b, hab.subset (by simp), rfl⟩
            · obtain ⟨d, hd, hm⟩ := ih t s ht2
              exact ⟨d, by rw [ht1]; simp [hd], hm⟩
        exact key _ _ _ hs
      · -- within the edges
        have hm : (true, c) ∈ g.edgeList.flatMap (colorEdge colors) := by rw [hs2]; simp
        obtain ⟨ed, hed, hm⟩ := List.mem_flatMap.1 hm
        obtain ⟨x, hx, hm⟩ := List.mem_map.1 hm
        simp only [Prod.mk.injEq, true_and] at hm
        obtain ⟨h1, h2, _⟩ := hg.ends ed (mem_edgeList.1 hed)
        have hin : ∀ v ∈ g.verts, (false, colors.map fun c => ((true, xn v c) : Lit Str)) ∈ pre := by
          intro v hv
          rw [hs1]
          exact List.mem_append_left _ (List.mem_flatMap.2 ⟨v, hv, by unfold colorVertex; simp⟩)
        rw [← hm] at hl
        simp only [List.mem_cons, List.not_mem_nil, or_false] at hl
        rcases hl with rfl | rfl
        · exact ⟨_, hin _ h1, hfirst _ _ h1 hx⟩
        · exact ⟨_, hin _ h2, hfirst _ _ h2 hx⟩)
  refine ⟨F, hF, ?_⟩
  rw [hc.sat]
  simp only [List.nil_append, List.map_append, allTrue_append, List.map_flatMap, allTrue_flatMap, mem_edgeList]
  have hv : ∀ (α : Str → Bool) v, AllTrue α ((colorVertex colors functional v).map Prod.snd) ↔
      (∃ c ∈ colors, α (xn v c) = true) ∧ (functional = true → ∀ a b, [a, b].Sublist colors → ¬ (α (xn v a) = true ∧ α (xn v b) = true)) := by
    intro α v
    unfold colorVertex
    rw [List.map_cons, allTrue_cons]
    refine and_congr ?_ ?_
    · simp [ClauseTrue]
    · cases functional with
      | false => simp [allTrue_nil]
      | true =>
        simp only [if_true, List.map_map, allTrue_map, Prod.forall, mem_pairs, true_imp_iff, Function.comp_apply, clauseTrue_cons, clauseTrue_nil, or_false]
        refine forall₃_congr fun a b _ => ?_
        cases α (xn v a) <;> cases α (xn v b) <;> simp
  have he : ∀ (α : Str → Bool) e, AllTrue α ((colorEdge colors e).map Prod.snd) ↔
      ∀ c ∈ colors, ¬ (α (xn e.1 c) = true ∧ α (xn e.2 c) = true) := by
    intro α e
    simp only [colorEdge, List.map_map, allTrue_map, Function.comp_apply, clauseTrue_cons, clauseTrue_nil, or_false]
    refine forall₂_congr fun c _ => ?_
    cases α (xn e.1 c) <;> cases α (xn e.2 c) <;> simp
  simp only [hv, he]
  constructor
  · rintro ⟨α, h1, h2⟩
    choose! f hf using fun v hv => (h1 v hv).1
    refine ⟨f, fun v hv => (hf v hv).1, fun e hm heq => ?_⟩
    obtain ⟨a, b, _⟩ := hg.ends e hm
    exact h2 e hm (f e.1) (hf _ a).1 ⟨(hf _ a).2, by rw [heq]; exact (hf _ b).2⟩
  · rintro ⟨f, h1, h2⟩
    obtain ⟨α, ha⟩ := exists_fmt2 "x".toList fun v c => f v = c
    have ha : ∀ i j, α (xn i j) = true ↔ f i = j := ha
    refine ⟨α, fun v hv => ⟨⟨f v, h1 v hv, (ha _ _).2 rfl⟩, fun _ a b hs => ?_⟩, fun e hm c _ => ?_⟩
    · rw [ha, ha]
      rintro ⟨rfl, rfl⟩
      have := hs.nodup hcol
      simp at this
    · rw [ha, ha]
      rintro ⟨rfl, h⟩
      exact h2 e hm h.symm

/-- A triangle with two and with three colors. -/
example : (∃ F, graphColoring ⟨[1, 2, 3], [(1, 2), (2, 3), (3, 1)]⟩ [1, 2] true = pure F ∧ ¬ Spec.Satisfiable F.clauses) ∧
    ∃ F, graphColoring ⟨[1, 2, 3], [(1, 2), (2, 3), (3, 1)]⟩ [1, 2, 3] true = pure F ∧ Spec.Satisfiable F.clauses := by
  have hw : (⟨[1, 2, 3], [(1, 2), (2, 3), (3, 1)]⟩ : Graph).Wf := ⟨by simp, by simp, by simp, by simp⟩
  obtain ⟨F, h1, h2⟩ := C54_coloring _ hw [1, 2] (by simp) true
  obtain ⟨G, h3, h4⟩ := C54_coloring _ hw [1, 2, 3] (by simp) true
  refine ⟨⟨F, h1, ?_⟩, G, h3, h4.2 ⟨id, by simp, by simp⟩⟩
  rw [h2]
  rintro ⟨f, hf, he⟩
  simp only [List.mem_cons, List.not_mem_nil, or_false, forall_eq_or_imp, forall_eq] at hf he
  omega

/-- The edges at a vertex. -/
def Graph.at (g : Graph) (v : Nat) : List (Nat × Nat) := g.edges.filter fun e => decide (e.1 = v ∨ e.2 = v)

theorem edgeName_edge_inj {a b c d : Nat} (h : edgeName a b = edgeName c d) : (a = c ∧ b = d) ∨ (a = d ∧ b = c) := by
  unfold edgeName at h
  split at h <;> split at h <;> have := xn_inj h <;> omega

/-- Counting neighbours is counting edges. -/
theorem nTrue_at {g : Graph} (hg : g.Wf) (α : Str → Bool) (v : Nat) :
    nTrue α ((g.neighbors v).map fun u => edgeName u v) = ((g.at v).filter fun e => α (edgeName e.1 e.2)).length := by
  have e1 : nTrue α ((g.neighbors v).map fun u => edgeName u v) = ((g.neighbors v).filter fun u => α (edgeName u v)).length := by
    unfold nTrue; rw [List.filter_map, List.length_map]; rfl
  have n1 : ((g.neighbors v).filter fun u => α (edgeName u v)).Nodup := (hg.verts_nodup.filter _).filter _
  have n2 : ((g.at v).filter fun e => α (edgeName e.1 e.2)).Nodup := (hg.nodup.filter _).filter _
  rw [e1, ← List.toFinset_card_of_nodup n1, ← List.toFinset_card_of_nodup n2]
  refine Finset.card_bij (fun u _ => if (u, v) ∈ g.edges then (u, v) else (v, u)) ?_ ?_ ?_
  · intro u hu
    simp only [List.mem_toFinset, List.mem_filter, Graph.mem_neighbors, Graph.at, decide_eq_true_eq] at hu ⊢
    split
    · exact ⟨⟨by assumption, .inr rfl⟩, hu.2⟩
    · rename_i h
      exact ⟨⟨(Graph.hasEdge_iff.1 hu.1.2).resolve_left h, .inl rfl⟩, by rw [edgeName_comm]; exact hu.2⟩
  · intro a ha b hb e
    simp only [List.mem_toFinset, List.mem_filter, Graph.mem_neighbors] at ha hb
    have na := hg.hasEdge_ne ha.1.2
    have nb := hg.hasEdge_ne hb.1.2
    split at e <;> split at e <;> simp only [Prod.mk.injEq] at e <;> omega
  · rintro ⟨a, b⟩ he
    simp only [List.mem_toFinset, List.mem_filter, Graph.at, decide_eq_true_eq] at he
    obtain ⟨⟨hm, hv⟩, ha⟩ := he
    rcases hv with rfl | rfl
    · refine ⟨b, ?_, if_neg (hg.once _ hm)⟩
      simp only [List.mem_toFinset, List.mem_filter, Graph.mem_neighbors]
      exact ⟨⟨(hg.ends _ hm).2.1, Graph.hasEdge_iff.2 (.inr hm)⟩, by rw [edgeName_comm]; exact ha⟩
    · refine ⟨a, ?_, if_pos hm⟩
      simp only [List.mem_toFinset, List.mem_filter, Graph.mem_neighbors]
      exact ⟨⟨(hg.ends _ hm).1, Graph.hasEdge_iff.2 (.inl hm)⟩, ha⟩

theorem length_at {g : Graph} (hg : g.Wf) (v : Nat) : (g.neighbors v).length = (g.at v).length := by
  have := nTrue_at hg (fun _ => true) v
  simpa [nTrue] using this

/-- **C54.** The even coloring formula is refused for a vertex of odd degree; otherwise it is satisfiable exactly when the edges can be
split in two parts so that each vertex has as many edges in one as in the other. -/
theorem C54_even_coloring (g : Graph) (hg : g.Wf) :
    ((∃ v ∈ g.verts, (g.at v).length % 2 = 1) → evenColoring g = raise .valueError) ∧
    ((∀ v ∈ g.verts, (g.at v).length % 2 = 0) → ∃ F, evenColoring g = pure F ∧ (Spec.Satisfiable F.clauses ↔
      ∃ s : Nat × Nat → Bool, ∀ v ∈ g.verts, ((g.at v).filter fun e => s e).length = ((g.at v).filter fun e => !s e).length)) := by
  unfold evenColoring
  simp only [length_at hg]
  constructor
  · intro h; rw [if_pos h]
  · intro h
    rw [if_neg (by rintro ⟨v, hv, h1⟩; have := h v hv; omega)]
    have hnn : ∀ v, (g.neighbors v).Nodup := fun v => hg.verts_nodup.filter _
    obtain ⟨F, hF, hc⟩ := CNF.ofPartsStrict_ok (vs := g.edgeList.map fun e => edgeName e.1 e.2)
      (cs := g.verts.flatMap fun v => equalTo ((g.neighbors v).map fun u => edgeName u v) (((g.at v).length / 2 : Nat) : Int))
      (by
        intro c hc
        obtain ⟨v, _, hc⟩ := List.mem_flatMap.1 hc
        exact (mem_equalTo hc).nodup (nodup_map_on (hnn v) fun a _ b _ => edgeName_inj))
      (by
        intro c hc l hl
        obtain ⟨v, _, hc⟩ := List.mem_flatMap.1 hc
        obtain ⟨u, hu, e⟩ := List.mem_map.1 ((mem_equalTo hc).subset (List.mem_map_of_mem hl))
        rw [← e]
        rcases Graph.hasEdge_iff.1 (Graph.mem_neighbors.1 hu).2 with h | h
        · exact List.mem_map.2 ⟨_, mem_edgeList.2 h, rfl⟩
        · exact List.mem_map.2 ⟨_, mem_edgeList.2 h, edgeName_comm _ _⟩)
    refine ⟨F, hF, ?_⟩
    rw [hc.sat]
    simp only [allTrue_flatMap, C48_equal_to, nTrue_at hg]
    have hsplit : ∀ (s : Nat × Nat → Bool) v, ((g.at v).filter fun e => s e).length + ((g.at v).filter fun e => !s e).length = (g.at v).length := by
      intro s v
      induction g.at v with
      | nil => rfl
      | cons e l ih => simp only [List.filter_cons]; cases s e <;> simp <;> omega
    constructor
    · rintro ⟨α, ha⟩
      refine ⟨fun e => α (edgeName e.1 e.2), fun v hv => ?_⟩
      have h1 := ha v hv
      have h2 : ((g.at v).filter fun e => α (edgeName e.1 e.2)).length + ((g.at v).filter fun e => !α (edgeName e.1 e.2)).length =
        (g.at v).length := hsplit (fun e => α (edgeName e.1 e.2)) v
      have h3 := h v hv
      change ((g.at v).filter fun e => α (edgeName e.1 e.2)).length = ((g.at v).filter fun e => !α (edgeName e.1 e.2)).length
      omega
    · rintro ⟨s, hs⟩
      classical
      let α : Str → Bool := fun n => decide (∃ e ∈ g.edges, n = edgeName e.1 e.2 ∧ s e = true)
      refine ⟨α, fun v hv => ?_⟩
      have e : (g.at v).filter (fun e => α (edgeName e.1 e.2)) = (g.at v).filter fun e => s e := by
        refine List.filter_congr fun e he => ?_
        have hm : e ∈ g.edges := (List.mem_filter.1 he).1
        have : α (edgeName e.1 e.2) = true ↔ s e = true := by
          simp only [α, decide_eq_true_eq]
          constructor
          · rintro ⟨e', he', hn, hs'⟩
            rcases edgeName_edge_inj hn with ⟨a, b⟩ | ⟨a, b⟩
            · rwa [show e = e' from Prod.ext a b]
            · have : (e.2, e.1) = e' := Prod.ext b a
              exact absurd (this ▸ he') (hg.once _ hm)
          · intro h; exact ⟨e, hm, rfl, h⟩
        cases hs : s e <;> cases ha : α (edgeName e.1 e.2) <;> simp_all
      rw [e]
      have h1 := hs v hv
      have h2 := hsplit s v
      have h3 := h v hv
      omega

/-- **C54.** Documentation ("satisfiable only on those graphs with an even number of vertices in each connected component") is wrong:
two triangles sharing a vertex have five vertices, in one component, and the formula is satisfiable. -/
theorem C54_even_coloring_doc_refuted : ∃ g : Graph, g.Wf ∧ g.Connected ∧ g.verts.length % 2 = 1 ∧
    ∃ F, evenColoring g = pure F ∧ Spec.Satisfiable F.clauses := by
  have hw : (⟨[1, 2, 3, 4, 5], [(1, 2), (2, 3), (1, 3), (3, 4), (4, 5), (3, 5)]⟩ : Graph).Wf := ⟨by simp, by simp, by simp, by simp⟩
  refine ⟨⟨[1, 2, 3, 4, 5], [(1, 2), (2, 3), (1, 3), (3, 4), (4, 5), (3, 5)]⟩, hw, ?_, by simp, ?_⟩
  · have h3 : ∀ v ∈ [1, 2, 3, 4, 5], Reach ⟨[1, 2, 3, 4, 5], [(1, 2), (2, 3), (1, 3), (3, 4), (4, 5), (3, 5)]⟩ v 3 := by
      intro v hv
      simp only [List.mem_cons, List.not_mem_nil, or_false] at hv
      rcases hv with rfl | rfl | rfl | rfl | rfl
      · exact .single (by decide)
      · exact .single (by decide)
      · exact .refl
      · exact .single (by decide)
      · exact .single (by decide)
    intro u hu v hv
    exact (h3 u hu).trans (h3 v hv).symm
  · obtain ⟨F, h1, h2⟩ := (C54_even_coloring _ hw).2 (by decide)
    exact ⟨F, h1, h2.2 ⟨fun e => decide (e ∈ [(2, 3), (1, 3), (4, 5)]), by decide⟩⟩

end NDP.Cnfgen
