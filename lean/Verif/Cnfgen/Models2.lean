import Verif.Cnfgen.Models
import Verif.Cnfgen.Tseitin
import Verif.Cnfgen.Ramsey
import Verif.Cnfgen.CliqueColoring
import Verif.Cnfgen.DominatingSet
import Verif.Cnfgen.SubsetCard
import Verif.Cnfgen.Isomorphism
/-
  C67, continued: counting, matching, Tseitin, coloring, Ramsey, cliques and colorings, dominating sets, subset cardinality, isomorphism.
-/
namespace NDP.Cnfgen
open NDP

theorem ofClauses_vars {V : Type} [DecidableEq V] {cs : List (List (Lit V))} {G : CNF V} (h : CNF.ofClauses cs = pure G) :
    ∀ v, v ∈ G.vars ↔ ∃ c ∈ cs, v ∈ c.map Prod.snd := by
  intro v
  unfold CNF.ofClauses at h
  rw [addAll_vars h]
  simp

theorem pair_sublist {A : Type} {l : List A} {i j : A} (hi : i ∈ l) (hj : j ∈ l) (hne : i ≠ j) : [i, j].Sublist l ∨ [j, i].Sublist l := by
  induction l with
  | nil => simp at hi
  | cons x xs ih =>
    rcases List.mem_cons.1 hi with rfl | hi'
    · rcases List.mem_cons.1 hj with rfl | hj'
      · exact absurd rfl hne
      · exact .inl ((List.singleton_sublist.2 hj').cons_cons _)
    · rcases List.mem_cons.1 hj with rfl | hj'
      · exact .inr ((List.singleton_sublist.2 hi').cons_cons _)
      · rcases ih hi' hj' with h | h
        · exact .inl (h.cons _)
        · exact .inr (h.cons _)

/-- **C67.** Counting principle: one variable for each set of `p` of the numbers below `n` (if `p` is 0 there is none), and a model
chooses sets so that each number is in exactly one of those chosen. -/
theorem C67_counting {n p : Nat} {F : CNF Str} (h : counting n p = pure F) :
    (∀ x, x ∈ F.vars ↔ ∃ t : List Nat, t.Pairwise (· < ·) ∧ (∀ e ∈ t, e < n) ∧ t.length = p ∧ t ≠ [] ∧ x = tupleName t) ∧
    ∀ α, Holds F.vars F.clauses α ↔ ∀ e < n, ∃ t : List Nat, (t.Pairwise (· < ·) ∧ (∀ e ∈ t, e < n) ∧ t.length = p) ∧ e ∈ t ∧
      α (tupleName t) = true ∧ ∀ s : List Nat, s.Pairwise (· < ·) ∧ (∀ e ∈ s, e < n) ∧ s.length = p → e ∈ s → α (tupleName s) = true → s = t := by
  have hsub : ∀ t : List Nat, t.Sublist (List.range n) ↔ t.Pairwise (· < ·) ∧ ∀ e ∈ t, e < n := by
    intro t
    constructor
    · intro hs; exact ⟨List.pairwise_lt_range.sublist hs, fun e he => List.mem_range.1 (hs.subset he)⟩
    · rintro ⟨h1, h2⟩
      apply List.sublist_of_subperm_of_pairwise (r := (· < ·)) _ h1 List.pairwise_lt_range
      exact List.subperm_of_subset (h1.imp fun h => Nat.ne_of_lt h) fun e he => List.mem_range.2 (h2 e he)
  unfold counting at h
  refine ⟨fun x => ?_, fun α => ?_⟩
  · rw [ofClauses_vars h]
    simp only [List.mem_flatMap, List.mem_range]
    constructor
    · rintro ⟨c, ⟨e, he, hc⟩, hx⟩
      obtain ⟨t, ht, rfl⟩ := List.mem_map.1 ((mem_equalTo hc).subset hx)
      obtain ⟨h1, h2, h3⟩ := mem_incidence.1 ht
      exact ⟨t, ((hsub t).1 h1).1, ((hsub t).1 h1).2, h2, List.ne_nil_of_mem h3, rfl⟩
    · rintro ⟨t, h1, h2, h3, h4, rfl⟩
      obtain ⟨e, t', rfl⟩ := List.exists_cons_of_ne_nil h4
      have := (equalTo_one_vars ((incidence n p e).map tupleName) (tupleName (e :: t'))).2
        (List.mem_map_of_mem (mem_incidence.2 ⟨(hsub _).2 ⟨h1, h2⟩, h3, by simp⟩))
      obtain ⟨c, hc, hx⟩ := this
      exact ⟨c, ⟨e, h2 e (by simp), hc⟩, hx⟩
  · rw [(ofClauses_coh h).holds, allTrue_flatMap]
    simp only [allTrue_eqOne _ _ _ (incidence_nodup n p _), List.mem_range, mem_incidence, hsub]
    refine forall₂_congr fun e _ => ⟨?_, ?_⟩
    · rintro ⟨t, ⟨⟨h1, h2⟩, h3, h4⟩, ha, hu⟩
      exact ⟨t, ⟨h1, h2, h3⟩, h4, ha, fun s hs he => hu s ⟨⟨hs.1, hs.2.1⟩, hs.2.2, he⟩⟩
    · rintro ⟨t, ⟨h1, h2, h3⟩, h4, ha, hu⟩
      exact ⟨t, ⟨⟨h1, h2⟩, h3, h4⟩, ha, fun s hs => hu s ⟨hs.1.1, hs.1.2, hs.2.1⟩ hs.2.2⟩

/-- **C67.** Perfect matching: a model chooses edges so that each vertex is in exactly one of them. -/
theorem C67_perfect_matching {g : Graph} (hg : g.Wf) {F : CNF Str} (h : perfectMatching g = pure F) :
    (∀ x, x ∈ F.vars ↔ ∃ e ∈ g.edges, x = xn (min e.1 e.2) (max e.1 e.2)) ∧
    ∀ α, Holds F.vars F.clauses α ↔ ∀ v ∈ g.verts, ∃ u, g.hasEdge u v = true ∧ α (xn (min u v) (max u v)) = true ∧
      ∀ w, g.hasEdge w v = true → α (xn (min w v) (max w v)) = true → w = u := by
  have hen : ∀ u v, edgeName u v = xn (min u v) (max u v) := by
    intro u v; unfold edgeName; split
    · rw [min_eq_left ‹_›, max_eq_right ‹_›]
    · rw [min_eq_right (by omega), max_eq_left (by omega)]
  unfold perfectMatching at h
  refine ⟨fun x => ?_, fun α => ?_⟩
  · rw [ofClauses_vars h]
    simp only [List.mem_flatMap]
    constructor
    · rintro ⟨c, ⟨v, hv, hc⟩, hx⟩
      obtain ⟨u, hu, rfl⟩ := List.mem_map.1 ((mem_equalTo hc).subset hx)
      rcases Graph.hasEdge_iff.1 (Graph.mem_neighbors.1 hu).2 with he | he
      · exact ⟨_, he, hen _ _⟩
      · exact ⟨_, he, by rw [edgeName_comm, hen]⟩
    · rintro ⟨⟨u, v⟩, he, rfl⟩
      have he' : g.hasEdge u v = true := Graph.hasEdge_iff.2 (.inl he)
      have := (equalTo_one_vars ((g.neighbors v).map fun u => edgeName u v) (edgeName u v)).2
        (List.mem_map.2 ⟨u, Graph.mem_neighbors.2 ⟨(hg.hasEdge_mem he').1, he'⟩, rfl⟩)
      obtain ⟨c, hc, hx⟩ := this
      exact ⟨c, ⟨v, (hg.hasEdge_mem he').2, hc⟩, by rw [← hen]; exact hx⟩
  · rw [(ofClauses_coh h).holds, allTrue_flatMap]
    have hnn : ∀ v, (g.neighbors v).Nodup := fun v => hg.verts_nodup.filter _
    simp only [allTrue_eqOne _ _ _ (hnn _), Graph.mem_neighbors, hen]
    refine forall₂_congr fun v _ => ⟨?_, ?_⟩
    · rintro ⟨u, ⟨_, h1⟩, ha, hu⟩
      exact ⟨u, h1, ha, fun w hw => hu w ⟨(hg.hasEdge_mem hw).1, hw⟩⟩
    · rintro ⟨u, h1, ha, hu⟩
      exact ⟨u, ⟨(hg.hasEdge_mem h1).1, h1⟩, ha, fun w hw => hu w hw.2⟩

/-- **C67.** Tseitin formula: one variable for each edge, named in the direction the edge is listed; a model has, at each vertex, an odd
number of true edges exactly when the vertex has charge 1 (vertices beyond the list of charges have charge 0). -/
theorem C67_tseitin {g : Graph} (hg : g.Wf) {charges : List Bool} {F : CNF Str} (h : tseitin g (some charges) = pure F) :
    (∀ x, x ∈ F.vars ↔ ∃ e ∈ g.edges, x = fmt2 "E".toList e.1 e.2) ∧
    ∀ α, Holds F.vars F.clauses α ↔ ∀ v ∈ g.verts,
      ((g.at v).filter fun e => α (fmt2 "E".toList e.1 e.2)).length % 2 = if charges.getD (g.verts.idxOf v) false then 1 else 0 := by
  unfold tseitin at h
  refine ⟨fun x => ?_, fun α => ?_⟩
  · rw [ofPartsStrict_vars h]
    simp only [List.mem_map, sortedEdges, mem_isort]
    exact ⟨fun ⟨e, he, hx⟩ => ⟨e, he, hx.symm⟩, fun ⟨e, he, hx⟩ => ⟨e, he, hx.symm⟩⟩
  · rw [(ofPartsStrict_coh h).holds]
    simp only [allTrue_flatMap, C48_parity]
    have hcount : ∀ v, nTrue α ((g.neighbors v).map fun u => tseName g u v) = ((g.at v).filter fun e => α (fmt2 "E".toList e.1 e.2)).length := by
      intro v
      unfold nTrue
      have hp : List.Perm ((g.neighbors v).map fun u => tseName g u v) ((g.at v).map fun e => fmt2 "E".toList e.1 e.2) := by
        refine (List.perm_ext_iff_of_nodup (tseVars_nodup hg v) (List.Nodup.map (fun a b e => fmt2_injective _ e) (hg.nodup.filter _))).2 ?_
        intro x
        simp only [tseVars, List.mem_map, Graph.at, List.mem_filter, decide_eq_true_eq, Graph.mem_neighbors]
        constructor
        · rintro ⟨u, ⟨_, hu⟩, rfl⟩
          unfold tseName
          split
          · next he => exact ⟨_, ⟨he, .inr rfl⟩, rfl⟩
          · next he => exact ⟨_, ⟨(Graph.hasEdge_iff.1 hu).resolve_left he, .inl rfl⟩, rfl⟩
        · rintro ⟨e, ⟨he, hv | hv⟩, rfl⟩
          · refine ⟨e.2, ⟨(hg.ends e he).2.1, Graph.hasEdge_iff.2 (.inr (by rw [← hv]; exact he))⟩, ?_⟩
            unfold tseName
            rw [if_neg (by rw [← hv]; exact hg.once e he), hv]
          · refine ⟨e.1, ⟨(hg.ends e he).1, Graph.hasEdge_iff.2 (.inl (by rw [← hv]; exact he))⟩, ?_⟩
            unfold tseName
            rw [if_pos (by rw [← hv]; exact he), hv]
      rw [(hp.filter _).length_eq, List.filter_map, List.length_map]
      rfl
    simp only [hcount]
    constructor
    · intro H v hv
      have := H (v, charges.getD (g.verts.idxOf v) false) ((tse_zip hg charges _).2 ⟨hv, rfl⟩)
      dsimp only at this
      rw [this]
    · rintro H ⟨v, b⟩ hp
      obtain ⟨hv, hb⟩ := (tse_zip hg charges _).1 hp
      have := H v hv
      dsimp only at hb ⊢
      rw [this, hb]

/-- **C67.** Coloring: a model gives colors to the vertices (one each if `functional`), and no edge has a color at both ends. -/
theorem C67_coloring {g : Graph} (hg : g.Wf) {colors : List Nat} (hcol : colors.Nodup) {functional : Bool} {F : CNF Str}
    (h : graphColoring g colors functional = pure F) :
    (∀ x, x ∈ F.vars ↔ ∃ v ∈ g.verts, ∃ c ∈ colors, x = xn v c) ∧
    ∀ α, Holds F.vars F.clauses α ↔
      (∀ v ∈ g.verts, ∃ c ∈ colors, α (xn v c) = true) ∧
      (functional = true → ∀ v ∈ g.verts, ∀ c ∈ colors, ∀ d ∈ colors, α (xn v c) = true → α (xn v d) = true → c = d) ∧
      (∀ e ∈ g.edges, ∀ c ∈ colors, ¬ (α (xn e.1 c) = true ∧ α (xn e.2 c) = true)) := by
  unfold graphColoring at h
  refine ⟨fun x => ?_, fun α => ?_⟩
  · rw [addMixed_vars h]
    simp only [List.not_mem_nil, false_or, List.mem_append, List.mem_flatMap]
    constructor
    · rintro ⟨c, ⟨v, hv, hc⟩ | ⟨e, he, hc⟩, hx⟩
      · unfold colorVertex at hc
        rcases List.mem_cons.1 hc with rfl | hc
        · rw [List.map_map] at hx
          obtain ⟨c, hc, rfl⟩ := List.mem_map.1 hx
          exact ⟨v, hv, c, hc, rfl⟩
        · split at hc
          · obtain ⟨p, hp, rfl⟩ := List.mem_map.1 hc
            have hs := ((mem_pairs (x := p.1) (y := p.2)).1 hp).subset
            simp only [List.map_cons, List.map_nil, List.mem_cons, List.not_mem_nil, or_false] at hx
            rcases hx with rfl | rfl
            · exact ⟨v, hv, _, hs (by simp), rfl⟩
            · exact ⟨v, hv, _, hs (by simp), rfl⟩
          · simp at hc
      · obtain ⟨c, hcc, rfl⟩ := List.mem_map.1 hc
        have := hg.ends e (mem_edgeList.1 he)
        simp only [List.map_cons, List.map_nil, List.mem_cons, List.not_mem_nil, or_false] at hx
        rcases hx with rfl | rfl
        · exact ⟨_, this.1, c, hcc, rfl⟩
        · exact ⟨_, this.2.1, c, hcc, rfl⟩
    · rintro ⟨v, hv, c, hc, rfl⟩
      refine ⟨_, .inl ⟨v, hv, List.mem_cons_self⟩, ?_⟩
      rw [List.map_map]
      exact List.mem_map.2 ⟨c, hc, rfl⟩
  · rw [(addMixed_coh h).holds, List.map_append, allTrue_append, List.map_flatMap, List.map_flatMap, allTrue_flatMap, allTrue_flatMap]
    have h1 : ∀ v, AllTrue α ((colorVertex colors functional v).map Prod.snd) ↔
        (∃ c ∈ colors, α (xn v c) = true) ∧ (functional = true → ∀ c ∈ colors, ∀ d ∈ colors, α (xn v c) = true → α (xn v d) = true → c = d) := by
      intro v
      unfold colorVertex
      rw [List.map_cons, allTrue_cons]
      refine and_congr ?_ ?_
      · simp only [ClauseTrue, List.mem_map]
        constructor
        · rintro ⟨_, ⟨c, hc, rfl⟩, ha⟩; exact ⟨c, hc, ha⟩
        · rintro ⟨c, hc, ha⟩; exact ⟨_, ⟨c, hc, rfl⟩, ha⟩
      · cases functional with
        | false => simp [allTrue_nil]
        | true =>
          simp only [if_true, true_imp_iff, List.map_map]
          rw [allTrue_map]
          simp only [Function.comp, clauseTrue_cons, clauseTrue_nil, or_false, Prod.forall]
          constructor
          · intro H c hc d hd e1 e2
            by_contra hne
            rcases pair_sublist hc hd hne with hs | hs
            · have := H c d (mem_pairs.2 hs); simp [e1, e2] at this
            · have := H d c (mem_pairs.2 hs); simp [e1, e2] at this
          · intro H c d hp
            have hs := mem_pairs.1 hp
            have hne : c ≠ d := by simpa using hs.nodup hcol
            by_contra hcon
            simp only [not_or, Bool.not_eq_false] at hcon
            exact hne (H c (hs.subset (by simp)) d (hs.subset (by simp)) hcon.1 hcon.2)
    have h2 : ∀ e : Nat × Nat, AllTrue α ((colorEdge colors e).map Prod.snd) ↔ ∀ c ∈ colors, ¬ (α (xn e.1 c) = true ∧ α (xn e.2 c) = true) := by
      intro e
      unfold colorEdge
      rw [List.map_map, allTrue_map]
      refine forall₂_congr fun c _ => ?_
      simp only [Function.comp, clauseTrue_cons, clauseTrue_nil, or_false]
      cases α (xn e.1 c) <;> cases α (xn e.2 c) <;> simp
    simp only [h1, h2, mem_edgeList]
    constructor
    · rintro ⟨a, b⟩; exact ⟨fun v hv => (a v hv).1, fun hf v hv => (a v hv).2 hf, b⟩
    · rintro ⟨a, b, c⟩; exact ⟨fun v hv => ⟨a v hv, fun hf => b hf v hv⟩, c⟩

/-- **C67.** Even coloring: half of the edges at each vertex are true. -/
theorem C67_even_coloring {g : Graph} (hg : g.Wf) {F : CNF Str} (h : evenColoring g = pure F) :
    (∀ x, x ∈ F.vars ↔ ∃ e ∈ g.edges, x = xn (min e.1 e.2) (max e.1 e.2)) ∧
    ∀ α, Holds F.vars F.clauses α ↔ ∀ v ∈ g.verts,
      2 * ((g.at v).filter fun e => α (xn (min e.1 e.2) (max e.1 e.2))).length = (g.at v).length := by
  have hen : ∀ u v, edgeName u v = xn (min u v) (max u v) := by
    intro u v; unfold edgeName; split
    · rw [min_eq_left ‹_›, max_eq_right ‹_›]
    · rw [min_eq_right (by omega), max_eq_left (by omega)]
  unfold evenColoring at h
  split at h
  · cases h
  rename_i hev
  refine ⟨fun x => ?_, fun α => ?_⟩
  · rw [ofPartsStrict_vars h]
    simp only [List.mem_map, mem_edgeList, hen]
    exact ⟨fun ⟨e, he, hx⟩ => ⟨e, he, hx.symm⟩, fun ⟨e, he, hx⟩ => ⟨e, he, hx.symm⟩⟩
  · rw [(ofPartsStrict_coh h).holds]
    simp only [allTrue_flatMap, C48_equal_to, nTrue_at hg, length_at hg]
    simp only [hen]
    refine forall₂_congr fun v hv => ?_
    have : (g.at v).length % 2 = 0 := by
      by_contra hne
      exact hev ⟨v, hv, by rw [length_at hg]; omega⟩
    omega

/-- **C67.** Ramsey formula: a model is a graph without `s` pairwise unconnected and without `k` pairwise connected vertices. -/
theorem C67_ramsey {s k n : Nat} {F : CNF Str} (h : ramsey s k n = pure F) :
    (∀ x, x ∈ F.vars ↔ ∃ u v, 1 ≤ u ∧ u < v ∧ v ≤ n ∧ x = fmt2 "e".toList u v) ∧
    ∀ α, Holds F.vars F.clauses α ↔
      (∀ S : Finset Nat, (∀ v ∈ S, 1 ≤ v ∧ v ≤ n) → S.card = s → ∃ u ∈ S, ∃ v ∈ S, u < v ∧ α (fmt2 "e".toList u v) = true) ∧
      (∀ S : Finset Nat, (∀ v ∈ S, 1 ≤ v ∧ v ≤ n) → S.card = k → ∃ u ∈ S, ∃ v ∈ S, u < v ∧ α (fmt2 "e".toList u v) = false) := by
  unfold ramsey at h
  refine ⟨fun x => ?_, fun α => ?_⟩
  · rw [ofPartsStrict_vars h]
    simp only [List.mem_map, Prod.exists, oneTo_pairs, mem_oneTo]
    constructor
    · rintro ⟨u, v, ⟨h1, h2, h3⟩, rfl⟩; exact ⟨u, v, h1.1, h3, h2.2, rfl⟩
    · rintro ⟨u, v, h1, h2, h3, rfl⟩; exact ⟨u, v, ⟨⟨h1, by omega⟩, ⟨by omega, h3⟩, h2⟩, rfl⟩
  · rw [(ofPartsStrict_coh h).holds, allTrue_append, ramsey_true, ramsey_true]

/-- **C67.** Pythagorean triples: a model is a coloring without a triple of one color. -/
theorem C67_pythagorean {isqrt : Nat → Nat} {n : Nat} (hs : ∀ z ≤ n, isqrt (z ^ 2) = z) {F : CNF Str} (h : pythagorean isqrt n = pure F) :
    (∀ x, x ∈ F.vars ↔ ∃ i, 1 ≤ i ∧ i ≤ n ∧ x = fmt1 "x".toList i) ∧
    ∀ α, Holds F.vars F.clauses α ↔ ∀ x y z, 1 ≤ x → 1 ≤ y → z ≤ n → x ^ 2 + y ^ 2 = z ^ 2 →
      ¬ (α (fmt1 "x".toList x) = α (fmt1 "x".toList y) ∧ α (fmt1 "x".toList y) = α (fmt1 "x".toList z)) := by
  unfold pythagorean at h
  refine ⟨fun x => ?_, fun α => ?_⟩
  · rw [ofPartsStrict_vars h]
    simp only [List.mem_map, mem_oneTo, and_assoc]
    exact ⟨fun ⟨i, a, b, c⟩ => ⟨i, a, b, c.symm⟩, fun ⟨i, a, b, c⟩ => ⟨i, a, b, c.symm⟩⟩
  · rw [(ofPartsStrict_coh h).holds, pyth_true isqrt n hs]

/-- **C67.** Clique and coloring: a model is a graph on `1..n` (`e`), a one-to-one map of `1..k` to a clique of it (`q`) and a proper coloring of it
with `c` colors (`r`). -/
theorem C67_clique_coloring {n k c : Nat} {F : CNF Str} (h : cliqueColoring n k c = pure F) :
    (∀ x, x ∈ F.vars ↔ (∃ u v, 1 ≤ u ∧ u < v ∧ v ≤ n ∧ x = fmt2 ['e'] u v) ∨
      (∃ i v, (1 ≤ i ∧ i ≤ k) ∧ (1 ≤ v ∧ v ≤ n) ∧ x = fmt2 ['q'] i v) ∨ ∃ v l, (1 ≤ v ∧ v ≤ n) ∧ (1 ≤ l ∧ l ≤ c) ∧ x = fmt2 ['r'] v l) ∧
    ∀ α, Holds F.vars F.clauses α ↔ ∃ q r : Nat → Nat,
      (∀ i, 1 ≤ i → i ≤ k → (1 ≤ q i ∧ q i ≤ n) ∧ ∀ v, 1 ≤ v → v ≤ n → (α (fmt2 ['q'] i v) = true ↔ v = q i)) ∧
      (∀ v, 1 ≤ v → v ≤ n → (1 ≤ r v ∧ r v ≤ c) ∧ ∀ l, 1 ≤ l → l ≤ c → (α (fmt2 ['r'] v l) = true ↔ l = r v)) ∧
      (∀ i j, 1 ≤ i → i < j → j ≤ k → q i ≠ q j ∧ α (fmt2 ['e'] (min (q i) (q j)) (max (q i) (q j))) = true) ∧
      (∀ u v, 1 ≤ u → u < v → v ≤ n → α (fmt2 ['e'] u v) = true → r u ≠ r v) := by
  unfold cliqueColoring at h
  refine ⟨fun x => ?_, fun α => ?_⟩
  · rw [ofPartsStrict_vars h]
    unfold ccVars
    simp only [List.mem_append, List.mem_map, List.mem_flatMap, Prod.exists, oneTo_pairs, mem_oneTo, ccQ, ccR, or_assoc]
    refine or_congr ?_ (or_congr ?_ ?_)
    · constructor
      · rintro ⟨u, v, ⟨h1, h2, h3⟩, rfl⟩; exact ⟨u, v, h1.1, h3, h2.2, ccE_lt h3⟩
      · rintro ⟨u, v, h1, h2, h3, rfl⟩; exact ⟨u, v, ⟨⟨h1, by omega⟩, ⟨by omega, h3⟩, h2⟩, ccE_lt h2⟩
    · constructor
      · rintro ⟨i, hi, v, hv, rfl⟩; exact ⟨i, v, hi, hv, rfl⟩
      · rintro ⟨i, v, hi, hv, rfl⟩; exact ⟨i, hi, v, hv, rfl⟩
    · constructor
      · rintro ⟨i, hi, v, hv, rfl⟩; exact ⟨i, v, hi, hv, rfl⟩
      · rintro ⟨i, v, hi, hv, rfl⟩; exact ⟨i, hi, v, hv, rfl⟩
  · rw [(ofPartsStrict_coh h).holds, cc_true]
    simp only [mem_oneTo]
    constructor
    · rintro ⟨a1, a2, a3, a4, a5⟩
      have b1 : ∀ i, ∃ v, 1 ≤ i ∧ i ≤ k → (1 ≤ v ∧ v ≤ n) ∧ α (ccQ i v) = true := by
        intro i; by_cases hi : 1 ≤ i ∧ i ≤ k
        · obtain ⟨v, hv⟩ := (a1 i hi).1; exact ⟨v, fun _ => hv⟩
        · exact ⟨0, fun h => absurd h hi⟩
      have b2 : ∀ v, ∃ l, 1 ≤ v ∧ v ≤ n → (1 ≤ l ∧ l ≤ c) ∧ α (ccR v l) = true := by
        intro i; by_cases hi : 1 ≤ i ∧ i ≤ n
        · obtain ⟨v, hv⟩ := (a4 i hi).1; exact ⟨v, fun _ => hv⟩
        · exact ⟨0, fun h => absurd h hi⟩
      choose q hq using b1
      choose r hr using b2
      refine ⟨q, r, fun i h1 h2 => ⟨(hq i ⟨h1, h2⟩).1, fun v h3 h4 => ⟨fun ha => (a1 i ⟨h1, h2⟩).2 v ⟨h3, h4⟩ _ (hq i ⟨h1, h2⟩).1 ha (hq i ⟨h1, h2⟩).2,
          fun e => e ▸ (hq i ⟨h1, h2⟩).2⟩⟩,
        fun i h1 h2 => ⟨(hr i ⟨h1, h2⟩).1, fun v h3 h4 => ⟨fun ha => (a4 i ⟨h1, h2⟩).2 v ⟨h3, h4⟩ _ (hr i ⟨h1, h2⟩).1 ha (hr i ⟨h1, h2⟩).2,
          fun e => e ▸ (hr i ⟨h1, h2⟩).2⟩⟩, ?_, ?_⟩
      · intro i j h1 h2 h3
        obtain ⟨p1, p2⟩ := hq i ⟨h1, by omega⟩
        obtain ⟨p3, p4⟩ := hq j ⟨by omega, h3⟩
        have hne : q i ≠ q j := fun e => a2 (q i) p1 i ⟨h1, by omega⟩ j ⟨by omega, h3⟩ h2 ⟨p2, e ▸ p4⟩
        refine ⟨hne, ?_⟩
        rcases Nat.lt_or_gt_of_ne hne with hl | hl
        · exact a3 _ p1 _ p3 hl i ⟨h1, by omega⟩ j ⟨by omega, h3⟩ (by omega) p2 p4
        · have := a3 _ p3 _ p1 hl j ⟨by omega, h3⟩ i ⟨h1, by omega⟩ (by omega) p4 p2
          unfold ccE at this
          rwa [min_comm, max_comm]
      · intro u v h1 h2 h3 he e
        obtain ⟨p1, p2⟩ := hr u ⟨h1, by omega⟩
        obtain ⟨p3, p4⟩ := hr v ⟨by omega, h3⟩
        exact a5 u ⟨h1, by omega⟩ v ⟨by omega, h3⟩ h2 (r u) p1 (by rw [ccE_lt h2]; exact he) ⟨p2, e ▸ p4⟩
    · rintro ⟨q, r, h1, h2, h3, h4⟩
      have hq : ∀ i, 1 ≤ i ∧ i ≤ k → ∀ v, 1 ≤ v ∧ v ≤ n → (α (ccQ i v) = true ↔ v = q i) := fun i hi v hv => (h1 i hi.1 hi.2).2 v hv.1 hv.2
      have hr : ∀ i, 1 ≤ i ∧ i ≤ n → ∀ v, 1 ≤ v ∧ v ≤ c → (α (ccR i v) = true ↔ v = r i) := fun i hi v hv => (h2 i hi.1 hi.2).2 v hv.1 hv.2
      refine ⟨fun i hi => ⟨⟨q i, (h1 i hi.1 hi.2).1, (hq i hi _ (h1 i hi.1 hi.2).1).2 rfl⟩, ?_⟩, ?_, ?_,
        fun v hv => ⟨⟨r v, (h2 v hv.1 hv.2).1, (hr v hv _ (h2 v hv.1 hv.2).1).2 rfl⟩, ?_⟩, ?_⟩
      · intro v hv w hw e1 e2; rw [(hq i hi v hv).1 e1, (hq i hi w hw).1 e2]
      · rintro v hv i hi j hj hlt ⟨e1, e2⟩
        exact (h3 i j hi.1 hlt hj.2).1 (by rw [← (hq i hi v hv).1 e1, ← (hq j hj v hv).1 e2])
      · intro u hu v hv hlt i hi j hj hne e1 e2
        have e1 := (hq i hi u hu).1 e1
        have e2 := (hq j hj v hv).1 e2
        rcases Nat.lt_or_gt_of_ne hne with hl | hl
        · have := (h3 i j hi.1 hl hj.2).2
          rw [← e1, ← e2] at this
          exact this
        · have := (h3 j i hj.1 hl hi.2).2
          rw [← e1, ← e2] at this
          unfold ccE
          rwa [min_comm, max_comm]
      · intro v1 hv1 v2 hv2 e1 e2
        rw [(hr v hv v1 hv1).1 e1, (hr v hv v2 hv2).1 e2]
      · rintro u hu v hv hlt l hl he ⟨e1, e2⟩
        exact h4 u v hu.1 hlt hv.2 (by rw [← ccE_lt hlt]; exact he) (by rw [← (hr u hu l hl).1 e1, ← (hr v hv l hl).1 e2])

/-- **C67.** Subset cardinality: a model chooses at least half of the edges at each left and at most half at each right vertex (exactly half, rounded,
with equations). -/
theorem C67_subset_cardinality {g : BiGraph} (hg : g.Ordered) {equalities : Bool} {F : CNF Str} (h : subsetCardinality g equalities = pure F) :
    (∀ x, x ∈ F.vars ↔ ∃ e ∈ g.edges, x = xn (min e.1 e.2) (max e.1 e.2)) ∧
    ∀ α, Holds F.vars F.clauses α ↔
      (∀ u ∈ g.left, if equalities then g.chosenL (fun u v => α (xn (min u v) (max u v))) u = ((g.nbrL u).length + 1) / 2
        else (g.nbrL u).length ≤ 2 * g.chosenL (fun u v => α (xn (min u v) (max u v))) u) ∧
      (∀ v ∈ g.right, if equalities then g.chosenR (fun u v => α (xn (min u v) (max u v))) v = (g.nbrR v).length / 2
        else 2 * g.chosenR (fun u v => α (xn (min u v) (max u v))) v ≤ (g.nbrR v).length) := by
  have hen : ∀ u v, edgeName u v = xn (min u v) (max u v) := by
    intro u v; unfold edgeName; split
    · rw [min_eq_left ‹_›, max_eq_right ‹_›]
    · rw [min_eq_right (by omega), max_eq_left (by omega)]
  unfold subsetCardinality at h
  refine ⟨fun x => ?_, fun α => ?_⟩
  · rw [ofPartsStrict_vars h]
    unfold scVars
    simp only [List.mem_flatMap, List.mem_map, mem_nbrL, hen]
    constructor
    · rintro ⟨u, _, v, ⟨_, he⟩, rfl⟩; exact ⟨_, he, rfl⟩
    · rintro ⟨e, he, rfl⟩; exact ⟨e.1, (hg.ends e he).1, e.2, ⟨(hg.ends e he).2, he⟩, rfl⟩
  · rw [(ofPartsStrict_coh h).holds, allTrue_append, scLeft_true, scRight_true]
    simp only [hen]

/-- **C67.** Graph isomorphism: a model is (the table of) an isomorphism. -/
theorem C67_isomorphism {g1 g2 : Graph} (h1 : g1.Wf) (h2 : g2.Wf) {F : CNF Str} (h : graphIsomorphism g1 g2 = pure F) :
    (∀ x, x ∈ F.vars ↔ ∃ u ∈ g1.verts, ∃ v ∈ g2.verts, x = fmt2 ['x'] u v) ∧
    ∀ α, Holds F.vars F.clauses α ↔
      ∃ f : Nat → Nat, g1.IsIso g2 f ∧ ∀ u ∈ g1.verts, ∀ v ∈ g2.verts, (α (fmt2 ['x'] u v) = true ↔ v = f u) := by
  unfold graphIsomorphism at h
  refine ⟨fun x => ?_, fun α => ?_⟩
  · rw [ofPartsStrict_vars h]
    simp only [isoVars, isoVar, List.mem_flatMap, List.mem_map, eq_comm]
  · rw [(ofPartsStrict_coh h).holds]
    exact iso_true h1 h2 α

/-- **C67.** Graph automorphism: a model is (the table of) an automorphism that moves a vertex. -/
theorem C67_automorphism {g : Graph} (hg : g.Wf) {F : CNF Str} (h : graphAutomorphism g = pure F) :
    (∀ x, x ∈ F.vars ↔ ∃ u ∈ g.verts, ∃ v ∈ g.verts, x = fmt2 ['x'] u v) ∧
    ∀ α, Holds F.vars F.clauses α ↔
      ∃ f : Nat → Nat, g.IsIso g f ∧ (∃ v ∈ g.verts, f v ≠ v) ∧ ∀ u ∈ g.verts, ∀ v ∈ g.verts, (α (fmt2 ['x'] u v) = true ↔ v = f u) := by
  unfold graphAutomorphism at h
  obtain ⟨G, hG, hF⟩ := M.bind_eq_pure.1 h
  obtain ⟨k1, _⟩ := C67_isomorphism hg hg hG
  unfold graphIsomorphism at hG
  refine ⟨fun x => ?_, fun α => ?_⟩
  · rw [addClause_strict_vars hF]; exact k1 x
  · rw [(addClause_coh (ofPartsStrict_coh hG) hF).holds, allTrue_append, iso_true hg hg]
    have hlast : AllTrue α [g.verts.map fun u => (false, isoVar u u)] ↔ ∃ u ∈ g.verts, ¬ α (isoVar u u) = true := by
      rw [allTrue_cons]
      simp only [allTrue_nil, and_true, ClauseTrue, List.mem_map]
      constructor
      · rintro ⟨l, ⟨u, hu, rfl⟩, h⟩; exact ⟨u, hu, by rw [h]; simp⟩
      · rintro ⟨u, hu, h⟩; exact ⟨_, ⟨u, hu, rfl⟩, by simpa using h⟩
    rw [hlast]
    constructor
    · rintro ⟨⟨f, hf, ha⟩, u, hu, hn⟩
      exact ⟨f, hf, ⟨u, hu, fun e => hn ((ha u hu u hu).2 e.symm)⟩, ha⟩
    · rintro ⟨f, hf, ⟨u, hu, hn⟩, ha⟩
      exact ⟨⟨f, hf, ha⟩, u, hu, fun e => hn ((ha u hu u hu).1 e).symm⟩

end NDP.Cnfgen
