import Verif.Cnfgen.Subgraph
/-
  C66: `SubgraphFormula` with several templates, and `RamseyWitnessFormula`.  The documented claim ("contains a copy of at least one of the
  templates") holds in one direction only; here are the exact meaning, the direction that holds, and counterexamples.
-/
namespace NDP.Cnfgen
open NDP

/-- A placement of fewer positions. -/
theorem Placement.mono {k k' N : Nat} {sym : Bool} {f : Nat → Nat} (h : Placement k N sym f) (hk : k' ≤ k) : Placement k' N sym f :=
  ⟨fun i hi => h.1 i (by omega), fun i j hij hj => h.2 i j hij (by omega)⟩

/-- A placement can be extended as long as there is room. -/
theorem Placement.extend {k k' N : Nat} {f : Nat → Nat} (h : Placement k N false f) (hN : k' ≤ N) (hk : k ≤ k') :
    ∃ f', Placement k' N false f' ∧ ∀ i < k, f' i = f i := by
  obtain ⟨d, rfl⟩ := Nat.exists_eq_add_of_le hk
  clear hk
  induction d with
  | zero => exact ⟨f, h, fun _ _ => rfl⟩
  | succ d ih =>
    obtain ⟨f', h', e⟩ := ih (by omega)
    obtain ⟨x, hx, hnot⟩ : ∃ x ∈ Finset.range N, x ∉ (Finset.range (k + d)).image f' := by
      by_contra hcon
      push Not at hcon
      have := Finset.card_le_card (show Finset.range N ⊆ (Finset.range (k + d)).image f' from hcon)
      have h2 := Finset.card_image_le (s := Finset.range (k + d)) (f := f')
      simp only [Finset.card_range] at this h2
      omega
    rw [Finset.mem_range] at hx
    have hnot' : ∀ i < k + d, f' i ≠ x := fun i hi e => hnot (Finset.mem_image.2 ⟨i, Finset.mem_range.2 hi, e⟩)
    refine ⟨fun i => if i = k + d then x else f' i, ⟨fun i hi => ?_, fun i j hij hj => ⟨?_, by simp⟩⟩, fun i hi => ?_⟩
    · dsimp only
      split
      · exact hx
      · exact h'.1 i (by omega)
    · dsimp only
      rw [if_neg (by omega : ¬ i = k + d)]
      split
      · exact hnot' i (by omega)
      · exact (h'.2 i j hij (by omega)).1
    · dsimp only
      rw [if_neg (by omega : ¬ i = k + d)]
      exact e i hi

theorem Fits.congr {g t : Graph} {f f' : Nat → Nat} (h : Fits g t f) (e : ∀ i < t.verts.length, f' i = f i) : Fits g t f' := by
  intro i j hij hj
  rw [e i (by omega), e j hj]
  exact h i j hij hj

/-- **C66, the direction that holds.** If the formula is satisfiable, the graph has an induced copy of one of the templates, however many
there are (at least one). -/
theorem C66_templates_partial (g : Graph) (hg : g.Wf) (ts : List Graph) (hts : ∀ t ∈ ts, t.Wf) (hne : ts ≠ []) :
    ∃ F, subgraph g ts false = pure F ∧ (Spec.Satisfiable F.clauses → ∃ t ∈ ts, ∃ φ, InducedCopy g t φ) := by
  obtain ⟨F, hF, h⟩ := subgraph_meaning g ts false hne
  refine ⟨F, hF, fun hs => ?_⟩
  obtain ⟨f, act, hP, hact, hfit⟩ := h.1 hs
  have hpos := List.length_pos_iff.2 hne
  obtain ⟨i, hi, ha⟩ : ∃ i, i < ts.length ∧ act i := by
    rcases Nat.lt_trichotomy ts.length 2 with h | h | h
    · exact ⟨0, hpos, hact.1 (by omega)⟩
    · rcases hact.2.1 h with h' | h'
      · exact ⟨0, hpos, h'⟩
      · exact ⟨1, by omega, h'⟩
    · obtain ⟨j, hj, hall⟩ := hact.2.2 h
      by_cases h0 : j = 0
      · exact ⟨1, by omega, hall 1 (by omega) (by omega)⟩
      · exact ⟨0, hpos, hall 0 hpos (by omega)⟩
  refine ⟨ts[i], List.getElem_mem hi, (copy_iff hg (hts _ (List.getElem_mem hi))).1 ⟨f, hP.mono (le_maxOrder (List.getElem_mem hi)), hfit i hi ha⟩⟩

/-- **C66, two templates.** Satisfiable exactly when the graph has an induced copy of one of them and *at least as many vertices as the
larger of them*. -/
theorem C66_two_templates_partial (g t t' : Graph) (hg : g.Wf) (ht : t.Wf) (ht' : t'.Wf) :
    ∃ F, subgraph g [t, t'] false = pure F ∧ (Spec.Satisfiable F.clauses ↔
      (t.verts.length ≤ g.verts.length ∧ t'.verts.length ≤ g.verts.length) ∧ ((∃ φ, InducedCopy g t φ) ∨ ∃ φ, InducedCopy g t' φ)) := by
  obtain ⟨F, hF, h⟩ := subgraph_meaning g [t, t'] false (by simp)
  refine ⟨F, hF, h.trans ?_⟩
  have hm : maxOrder [t, t'] = max t.verts.length t'.verts.length := by simp [maxOrder]
  rw [hm, ← copy_iff hg ht, ← copy_iff hg ht']
  constructor
  · rintro ⟨f, act, hP, hact, hfit⟩
    have hcard : max t.verts.length t'.verts.length ≤ g.verts.length := by
      have := Finset.card_le_card_of_injOn (s := Finset.range (max t.verts.length t'.verts.length)) (t := Finset.range g.verts.length) f
        (by intro i hi; simp only [Finset.coe_range, Set.mem_Iio] at hi ⊢; exact hP.1 i hi)
        (by
          intro i hi j hj e
          simp only [Finset.coe_range, Set.mem_Iio] at hi hj
          exact placement_injOn hP hi hj e)
      simpa using this
    refine ⟨⟨(le_max_left _ _).trans hcard, (le_max_right _ _).trans hcard⟩, ?_⟩
    rcases hact.2.1 rfl with ha | ha
    · exact .inl ⟨f, hP.mono (le_max_left _ _), hfit 0 (by simp) ha⟩
    · exact .inr ⟨f, hP.mono (le_max_right _ _), hfit 1 (by simp) ha⟩
  · rintro ⟨⟨h1, h2⟩, ⟨f, hP, hf⟩ | ⟨f, hP, hf⟩⟩
    · obtain ⟨f', hP', e⟩ := hP.extend (max_le h1 h2) (le_max_left _ _)
      refine ⟨f', fun i => i = 0, hP', ⟨fun _ => rfl, fun _ => .inl rfl, by simp⟩, fun i hi ha => ?_⟩
      subst ha
      exact hf.congr e
    · obtain ⟨f', hP', e⟩ := hP.extend (max_le h1 h2) (le_max_right _ _)
      refine ⟨f', fun i => i = 1, hP', ⟨by simp, fun _ => .inr rfl, by simp⟩, fun i hi ha => ?_⟩
      subst ha
      exact hf.congr e

/-- **C66, three templates and more.** Satisfiable exactly when one placement fits *all but one* of the templates. -/
theorem C66_many_templates_partial (g : Graph) (ts : List Graph) (h3 : 3 ≤ ts.length) :
    ∃ F, subgraph g ts false = pure F ∧ (Spec.Satisfiable F.clauses ↔
      ∃ f, Placement (maxOrder ts) g.verts.length false f ∧ ∃ i < ts.length, ∀ (j : Nat) (hj : j < ts.length), j ≠ i → Fits g ts[j] f) := by
  have hne : ts ≠ [] := by rintro rfl; simp at h3
  obtain ⟨F, hF, h⟩ := subgraph_meaning g ts false hne
  refine ⟨F, hF, h.trans ?_⟩
  constructor
  · rintro ⟨f, act, hP, hact, hfit⟩
    obtain ⟨i, hi, hall⟩ := hact.2.2 h3
    exact ⟨f, hP, i, hi, fun j hj hji => hfit j hj (hall j hj hji)⟩
  · rintro ⟨f, hP, i, hi, hall⟩
    exact ⟨f, fun j => j ≠ i, hP, ⟨by omega, by omega, fun _ => ⟨i, hi, fun j _ h => h⟩⟩, hall⟩

/-- **C66, not what is documented.** A vertex is a copy of the one-vertex template, but with a larger template beside it the formula is
unsatisfiable. -/
theorem C66_order_refuted :
    ∃ g t t' : Graph, g.Wf ∧ t.Wf ∧ t'.Wf ∧ (∃ φ, InducedCopy g t φ) ∧
      ∃ F, subgraph g [t, t'] false = pure F ∧ ¬ Spec.Satisfiable F.clauses := by
  have w1 : Graph.Wf ⟨[0], []⟩ := ⟨by simp, by simp, by simp, by simp⟩
  have w2 : Graph.Wf ⟨[0, 1], [(0, 1)]⟩ := ⟨by simp, by simp, by simp, by simp⟩
  obtain ⟨F, hF, h⟩ := C66_two_templates_partial ⟨[0], []⟩ ⟨[0], []⟩ ⟨[0, 1], [(0, 1)]⟩ w1 w1 w2
  refine ⟨⟨[0], []⟩, ⟨[0], []⟩, ⟨[0, 1], [(0, 1)]⟩, w1, w1, w2, ⟨id, fun u h => h, fun _ _ _ _ h => h, fun _ _ _ _ => Iff.rfl⟩, F, hF, ?_⟩
  rw [h]
  simp

/-- **C66, not what is documented.** With three templates the formula can be unsatisfiable although the graph *is* one of them. -/
theorem C66_three_refuted :
    ∃ g t t' t'' : Graph, g.Wf ∧ t.Wf ∧ t'.Wf ∧ t''.Wf ∧ (∃ φ, InducedCopy g t φ) ∧
      ∃ F, subgraph g [t, t', t''] false = pure F ∧ ¬ Spec.Satisfiable F.clauses := by
  have w1 : Graph.Wf ⟨[0, 1], []⟩ := ⟨by simp, by simp, by simp, by simp⟩
  have w2 : Graph.Wf ⟨[0, 1], [(0, 1)]⟩ := ⟨by simp, by simp, by simp, by simp⟩
  obtain ⟨F, hF, h⟩ := C66_many_templates_partial ⟨[0, 1], []⟩ [⟨[0, 1], []⟩, ⟨[0, 1], [(0, 1)]⟩, ⟨[0, 1], [(0, 1)]⟩] (by simp)
  refine ⟨⟨[0, 1], []⟩, ⟨[0, 1], []⟩, ⟨[0, 1], [(0, 1)]⟩, ⟨[0, 1], [(0, 1)]⟩, w1, w1, w2, w2,
    ⟨id, fun u h => h, fun _ _ _ _ h => h, fun _ _ _ _ => Iff.rfl⟩, F, hF, ?_⟩
  rw [h]
  rintro ⟨f, hP, i, hi, hall⟩
  have no : ¬ Fits ⟨[0, 1], []⟩ ⟨[0, 1], [(0, 1)]⟩ f := by
    intro hf
    have := (hf 0 1 (by omega) (by simp)).1 (by simp [Graph.posEdge, Graph.hasEdge])
    simp [Graph.posEdge, Graph.hasEdge] at this
  by_cases h1 : i = 1
  · exact no (hall 2 (by simp) (by omega))
  · exact no (hall 1 (by simp) (by omega))

/-- Without templates the formula is empty, hence satisfiable, although nothing is contained. -/
theorem C66_no_template (g : Graph) (sym : Bool) : ∃ F, subgraph g [] sym = pure F ∧ Spec.Satisfiable F.clauses :=
  ⟨{}, rfl, fun _ => true, by intro c hc; simp at hc⟩

/-! ### `RamseyWitnessFormula` -/

theorem sorted_getD {l : List Nat} (h : l.Pairwise (· < ·)) {i j : Nat} (hij : i < j) (hj : j < l.length) : l.getD i 0 < l.getD j 0 := by
  rw [List.getD_eq_getElem?_getD, List.getElem?_eq_getElem (hij.trans hj), List.getD_eq_getElem?_getD, List.getElem?_eq_getElem hj]
  exact List.pairwise_iff_getElem.1 h i j (hij.trans hj) hj hij

/-- The vertices of `g` larger than all of `K`. -/
def above (g : Graph) (K : Finset Nat) : Finset Nat := g.verts.toFinset.filter fun v => ∀ u ∈ K, u < v

/-- The first `k` of `m` places in increasing order form a homogeneous set, with `m - k` vertices above it. -/
theorem prefix_iff {g : Graph} (hg : g.Wf) (b : Bool) {k m : Nat} (hkm : k ≤ m) :
    (∃ f, Placement m g.verts.length true f ∧ ∀ i j, i < j → j < k → g.posEdge (f i) (f j) = b) ↔
      ∃ K : Finset Nat, Homogeneous g b K ∧ K.card = k ∧ m ≤ k + (above g K).card := by
  constructor
  · rintro ⟨f, hP, hb⟩
    have hlt : ∀ i j, i < j → j < m → g.verts.getD (f i) 0 < g.verts.getD (f j) 0 := fun i j hij hj =>
      sorted_getD hg.sorted ((hP.2 i j hij hj).2 rfl) (hP.1 j hj)
    have hinj : ∀ s : Finset Nat, (∀ i ∈ s, i < m) → (s.image fun i => g.verts.getD (f i) 0).card = s.card := by
      intro s hs
      refine Finset.card_image_of_injOn fun i hi j hj e => ?_
      by_contra hne
      rcases Nat.lt_or_gt_of_ne hne with h | h
      · exact absurd e (Nat.ne_of_lt (hlt i j h (hs j hj)))
      · exact absurd e.symm (Nat.ne_of_lt (hlt j i h (hs i hi)))
    refine ⟨(Finset.range k).image fun i => g.verts.getD (f i) 0, ⟨?_, ?_⟩, ?_, ?_⟩
    · intro v h
      obtain ⟨i, hi, rfl⟩ := Finset.mem_image.1 h
      rw [Finset.mem_range] at hi
      exact getD_mem (hP.1 i (by omega))
    · intro u hu v hv' huv
      obtain ⟨i, hi, rfl⟩ := Finset.mem_image.1 hu
      obtain ⟨j, hj, rfl⟩ := Finset.mem_image.1 hv'
      rw [Finset.mem_range] at hi hj
      rcases Nat.lt_trichotomy i j with h | h | h
      · exact hb i j h hj
      · subst h; exact absurd rfl huv
      · rw [Graph.hasEdge_comm]; exact hb j i h hi
    · rw [hinj _ (fun i hi => by rw [Finset.mem_range] at hi; omega), Finset.card_range]
    · have hsub : (Finset.Ico k m).image (fun i => g.verts.getD (f i) 0) ⊆ above g ((Finset.range k).image fun i => g.verts.getD (f i) 0) := by
        intro v hv
        obtain ⟨j, hj, rfl⟩ := Finset.mem_image.1 hv
        rw [Finset.mem_Ico] at hj
        unfold above
        rw [Finset.mem_filter, List.mem_toFinset]
        refine ⟨getD_mem (hP.1 j hj.2), fun u hu => ?_⟩
        obtain ⟨i, hi, rfl⟩ := Finset.mem_image.1 hu
        rw [Finset.mem_range] at hi
        exact hlt i j (by omega) hj.2
      have h1 := Finset.card_le_card hsub
      rw [hinj _ (fun i hi => (Finset.mem_Ico.1 hi).2), Nat.card_Ico] at h1
      omega
  · rintro ⟨K, ⟨h1, h2⟩, rfl, hm⟩
    obtain ⟨A, hA, hAc⟩ := Finset.exists_subset_card_eq (show m - K.card ≤ (above g K).card by omega)
    obtain ⟨f, hP, hf⟩ := place_of_set (ns := g.verts) K h1
    obtain ⟨f', hP', hf'⟩ := place_of_set (ns := g.verts) A (fun v hv => by
      have := hA hv; unfold above at this; rw [Finset.mem_filter, List.mem_toFinset] at this; exact this.1)
    rw [hAc] at hP' hf'
    have hcross : ∀ i < K.card, ∀ j < m - K.card, f i < f' j := by
      intro i hi j hj
      have ha := hA (hf' j hj)
      unfold above at ha
      have hlt := (Finset.mem_filter.1 ha).2 _ (hf i hi)
      by_contra hcon
      rcases Nat.lt_or_eq_of_le (Nat.not_lt.1 hcon) with h | h
      · have := sorted_getD hg.sorted h (hP.1 i hi)
        omega
      · rw [h] at hlt; omega
    have key : ∀ i j, i < j → j < m → (if i < K.card then f i else f' (i - K.card)) < (if j < K.card then f j else f' (j - K.card)) := by
      intro i j hij hj
      split <;> split
      · exact (hP.2 i j hij (by assumption)).2 rfl
      · exact hcross i (by assumption) _ (by omega)
      · omega
      · exact (hP'.2 (i - K.card) (j - K.card) (by omega) (by omega)).2 rfl
    refine ⟨fun i => if i < K.card then f i else f' (i - K.card), ⟨fun i hi => ?_, fun i j hij hj => ?_⟩, fun i j hij hj => ?_⟩
    · dsimp only
      split
      · exact hP.1 i (by assumption)
      · exact hP'.1 _ (by omega)
    · exact ⟨Nat.ne_of_lt (key i j hij hj), fun _ => key i j hij hj⟩
    · dsimp only
      rw [if_pos hj, if_pos (hij.trans hj)]
      refine h2 _ (hf i (hij.trans hj)) _ (hf j hj) fun e => ?_
      exact (hP.2 i j hij hj).1 (getD_inj hg.verts_nodup (hP.1 i (hij.trans hj)) (hP.1 j hj) e)

/-- **C66, `RamseyWitnessFormula`: what it says.** Satisfiable exactly when the graph has a clique of size `k` with `max(k,s) - k` larger
vertices, or a stable set of size `s` with `max(k,s) - s` larger vertices. -/
theorem C66_ramsey_witness_partial (g : Graph) (hg : g.Wf) (k s : Nat) :
    ∃ F, ramseyWitness g k s = pure F ∧ (Spec.Satisfiable F.clauses ↔
      (∃ K, Homogeneous g true K ∧ K.card = k ∧ max k s ≤ k + (above g K).card) ∨
      ∃ K, Homogeneous g false K ∧ K.card = s ∧ max k s ≤ s + (above g K).card) := by
  obtain ⟨F, hF, h⟩ := subgraph_meaning g [Graph.complete k, Graph.empty s] true (by simp)
  refine ⟨F, hF, h.trans ?_⟩
  have hl : (Graph.complete k).verts.length = k := by simp [Graph.complete]
  have hl' : (Graph.empty s).verts.length = s := by simp [Graph.empty]
  have hm : maxOrder [Graph.complete k, Graph.empty s] = max k s := by simp [maxOrder, hl, hl']
  rw [hm, ← prefix_iff hg true (le_max_left k s), ← prefix_iff hg false (le_max_right k s)]
  constructor
  · rintro ⟨f, act, hP, hact, hfit⟩
    rcases hact.2.1 rfl with ha | ha
    · refine .inl ⟨f, hP, fun i j hij hj => ?_⟩
      exact (hfit 0 (by simp) ha i j hij (by simpa [hl] using hj)).1 (complete_posEdge hij hj)
    · refine .inr ⟨f, hP, fun i j hij hj => ?_⟩
      have := hfit 1 (by simp) ha i j hij (by simpa [hl'] using hj)
      rw [show ([Graph.complete k, Graph.empty s][1]'(by simp)) = Graph.empty s from rfl, empty_posEdge] at this
      simpa using this
  · rintro (⟨f, hP, hf⟩ | ⟨f, hP, hf⟩)
    · refine ⟨f, fun i => i = 0, hP, ⟨fun _ => rfl, fun _ => .inl rfl, by simp⟩, fun i hi ha => ?_⟩
      subst ha
      intro i j hij hj
      have hj : j < k := by simpa [hl] using hj
      exact iff_of_true (complete_posEdge hij hj) (hf i j hij hj)
    · refine ⟨f, fun i => i = 1, hP, ⟨by simp, fun _ => .inr rfl, by simp⟩, fun i hi ha => ?_⟩
      subst ha
      intro i j hij hj
      have hj : j < s := by simpa [hl'] using hj
      rw [show ([Graph.complete k, Graph.empty s][1]'(by simp)) = Graph.empty s from rfl, empty_posEdge, hf i j hij hj]

/-- **C66.** For `k = s` it is what the command line help says: unsatisfiable exactly when the graph has neither a clique nor a stable set of
size `k`. -/
theorem C66_ramsey_witness_diag (g : Graph) (hg : g.Wf) (k : Nat) :
    ∃ F, ramseyWitness g k k = pure F ∧ (Spec.Satisfiable F.clauses ↔
      (∃ K, Homogeneous g true K ∧ K.card = k) ∨ ∃ K, Homogeneous g false K ∧ K.card = k) := by
  obtain ⟨F, hF, h⟩ := C66_ramsey_witness_partial g hg k k
  refine ⟨F, hF, h.trans ?_⟩
  simp only [max_self, Nat.le_add_right, and_true]

/-- **C66.** In every case: if the formula is satisfiable there is such a clique or stable set. -/
theorem C66_ramsey_witness_sound (g : Graph) (hg : g.Wf) (k s : Nat) :
    ∃ F, ramseyWitness g k s = pure F ∧ (Spec.Satisfiable F.clauses →
      (∃ K, Homogeneous g true K ∧ K.card = k) ∨ ∃ K, Homogeneous g false K ∧ K.card = s) := by
  obtain ⟨F, hF, h⟩ := C66_ramsey_witness_partial g hg k s
  refine ⟨F, hF, fun hs => ?_⟩
  rcases h.1 hs with ⟨K, h1, h2, _⟩ | ⟨K, h1, h2, _⟩
  · exact .inl ⟨K, h1, h2⟩
  · exact .inr ⟨K, h1, h2⟩

/-- **C66, not what is documented.** A graph with a connected pair of vertices (a clique of size 2), for which the formula with `k = 2`, `s = 3`
is unsatisfiable: the pair is at the end of the vertex order, and the formula wants a third, larger vertex. -/
theorem C66_ramsey_witness_refuted :
    ∃ g : Graph, g.Wf ∧ (∃ K, Homogeneous g true K ∧ K.card = 2) ∧ ∃ F, ramseyWitness g 2 3 = pure F ∧ ¬ Spec.Satisfiable F.clauses := by
  have w : Graph.Wf ⟨[0, 1, 2], [(1, 2)]⟩ := ⟨by simp, by simp, by simp, by simp⟩
  obtain ⟨F, hF, h⟩ := C66_ramsey_witness_partial ⟨[0, 1, 2], [(1, 2)]⟩ w 2 3
  refine ⟨⟨[0, 1, 2], [(1, 2)]⟩, w, ⟨{1, 2}, ⟨?_, ?_⟩, by simp⟩, F, hF, ?_⟩
  · intro v hv; simp at hv; rcases hv with rfl | rfl <;> simp
  · intro u hu v hv hne; simp at hu hv; rcases hu with rfl | rfl <;> rcases hv with rfl | rfl <;> simp_all [Graph.hasEdge]
  · rw [h]
    rintro (⟨K, ⟨h1, h2⟩, hc, ha⟩ | ⟨K, ⟨h1, h2⟩, hc, ha⟩)
    · obtain ⟨x, y, hxy, rfl⟩ := Finset.card_eq_two.1 hc
      have hx := h1 x (by simp)
      have hy := h1 y (by simp)
      have he := h2 x (by simp) y (by simp) hxy
      have h0 : above ⟨[0, 1, 2], [(1, 2)]⟩ {x, y} = ∅ := by
        rw [Finset.eq_empty_iff_forall_notMem]
        intro v hv
        unfold above at hv
        rw [Finset.mem_filter, List.mem_toFinset] at hv
        have a1 := hv.2 x (by simp)
        have a2 := hv.2 y (by simp)
        have hv := hv.1
        simp only [Graph.hasEdge_iff, List.mem_singleton, Prod.mk.injEq] at he
        simp only [List.mem_cons, List.not_mem_nil, or_false] at hv
        omega
      rw [h0] at ha
      simp at ha
    · have hsub : K ⊆ {0, 1, 2} := fun v hv => by have := h1 v hv; simpa using this
      have hK : K = {0, 1, 2} := Finset.eq_of_subset_of_card_le hsub (by rw [hc]; decide)
      have := h2 1 (by simp [hK]) 2 (by simp [hK]) (by omega)
      simp [Graph.hasEdge] at this

/-! ### Concrete cases -/

/-- The path 0-1-2 has an induced path on two edges but no triangle. -/
example : (∃ F, subgraph ⟨[0, 1, 2], [(0, 1), (1, 2)]⟩ [⟨[5, 6, 7], [(5, 6), (5, 7)]⟩] false = pure F ∧ Spec.Satisfiable F.clauses) ∧
    ∃ F, cliqueFormula ⟨[0, 1, 2], [(0, 1), (1, 2)]⟩ 3 = pure F ∧ ¬ Spec.Satisfiable F.clauses := by
  have w : Graph.Wf ⟨[0, 1, 2], [(0, 1), (1, 2)]⟩ := ⟨by simp, by simp, by simp, by simp⟩
  have w' : Graph.Wf ⟨[5, 6, 7], [(5, 6), (5, 7)]⟩ := ⟨by simp, by simp, by simp, by simp⟩
  obtain ⟨F, hF, h⟩ := C65_subgraph _ _ w w'
  obtain ⟨G, hG, h'⟩ := C65_clique ⟨[0, 1, 2], [(0, 1), (1, 2)]⟩ w 3
  refine ⟨⟨F, hF, h.2 ⟨fun u => if u = 5 then 1 else if u = 6 then 0 else 2, ?_, ?_, ?_⟩⟩, G, hG, ?_⟩
  · simp
  · simp
  · simp [Graph.hasEdge]
  · rw [h']
    rintro ⟨K, ⟨h1, h2⟩, hc⟩
    have hsub : K ⊆ {0, 1, 2} := fun v hv => by have := h1 v hv; simpa using this
    have hK : K = {0, 1, 2} := Finset.eq_of_subset_of_card_le hsub (by rw [hc]; decide)
    have := h2 0 (by simp [hK]) 2 (by simp [hK]) (by omega)
    simp [Graph.hasEdge] at this

/-- The same graph has an edge, in binary too, with the vertices in the order 2, 0, 1. -/
example : ∃ F, binaryClique ⟨[0, 1, 2], [(0, 1), (1, 2)]⟩ [2, 0, 1] 2 2 = pure F ∧ Spec.Satisfiable F.clauses := by
  obtain ⟨F, hF, h⟩ := C65_binary_clique ⟨[0, 1, 2], [(0, 1), (1, 2)]⟩ [2, 0, 1] (by simp) (by simp; omega) 2 2 (by simp) (by simp)
  refine ⟨F, hF, h.2 ⟨{0, 1}, ⟨?_, ?_⟩, by simp⟩⟩
  · intro v hv; simp at hv; rcases hv with rfl | rfl <;> simp
  · intro u hu v hv hne; simp at hu hv; rcases hu with rfl | rfl <;> rcases hv with rfl | rfl <;> simp_all [Graph.hasEdge]

end NDP.Cnfgen
