import Verif.Cnfgen.Clauses
/-
  C82, continued: pigeons, matchings, parities, colorings, cliques, isomorphisms.
-/
namespace NDP.Cnfgen
open NDP

/-- **C82.** Pigeonhole formula: for each pigeon "it is in a hole" (and, if functional, "in at most one"), for each hole "at most one pigeon is in it" (and, if
onto, "at least one"). -/
theorem C82_pigeonhole {pigeons holes : Nat} {functional onto : Bool} {F : CNF Str} (h : pigeonhole pigeons holes functional onto = pure F) :
    Says F.vars F.clauses
      ({φ | ∃ i ∈ oneTo pigeons, φ = fun α => ∃ j ∈ oneTo holes, α (fmt2 "p".toList i j) = true} ∪
       {φ | onto = true ∧ ∃ j ∈ oneTo holes, φ = fun α => ∃ i ∈ oneTo pigeons, α (fmt2 "p".toList i j) = true} ∪
       {φ | ∃ j ∈ oneTo holes, φ = fun α => ∀ i ∈ oneTo pigeons, ∀ i' ∈ oneTo pigeons,
          α (fmt2 "p".toList i j) = true → α (fmt2 "p".toList i' j) = true → i = i'} ∪
       {φ | functional = true ∧ ∃ i ∈ oneTo pigeons, φ = fun α => ∀ j ∈ oneTo holes, ∀ j' ∈ oneTo holes,
          α (fmt2 "p".toList i j) = true → α (fmt2 "p".toList i j') = true → j = j'}) := by
  unfold pigeonhole at h
  refine SaysLits.says (ofParts_coh h) ?_
  simp only [UnaryMapping.clauses, UnaryMapping.full, if_true, Bool.false_eq_true, if_false, List.append_nil]
  refine says_append (says_append (says_append (says_each fun i _ α => ?_) (says_ite fun _ => says_each fun j _ α => ?_))
    (says_each fun j _ α => ?_)) (says_ite fun _ => says_each fun i _ α => ?_)
  · rw [allTrue_geOne]; simp
  · rw [allTrue_geOne]; simp
  · exact allTrue_leOne α _ (fun i => fmt2 "p".toList i j) (oneTo_nodup _)
  · exact allTrue_leOne α _ (fun j => fmt2 "p".toList i j) (oneTo_nodup _)

/-- **C82.** Graph pigeonhole formula. -/
theorem C82_graph_pigeonhole {g : BiGraph} (hg : g.Wf) {functional onto : Bool} {F : CNF Str} (h : graphPigeonhole g functional onto = pure F) :
    Says F.vars F.clauses
      ({φ | ∃ u ∈ g.left, φ = fun α => ∃ v ∈ g.right, (u, v) ∈ g.edges ∧ α (fmt2 "p".toList u v) = true} ∪
       {φ | onto = true ∧ ∃ v ∈ g.right, φ = fun α => ∃ u ∈ g.left, (u, v) ∈ g.edges ∧ α (fmt2 "p".toList u v) = true} ∪
       {φ | ∃ v ∈ g.right, φ = fun α => ∀ u ∈ g.left, ∀ u' ∈ g.left, (u, v) ∈ g.edges → (u', v) ∈ g.edges →
          α (fmt2 "p".toList u v) = true → α (fmt2 "p".toList u' v) = true → u = u'} ∪
       {φ | functional = true ∧ ∃ u ∈ g.left, φ = fun α => ∀ v ∈ g.right, ∀ v' ∈ g.right, (u, v) ∈ g.edges → (u, v') ∈ g.edges →
          α (fmt2 "p".toList u v) = true → α (fmt2 "p".toList u v') = true → v = v'}) := by
  unfold graphPigeonhole at h
  refine SaysLits.says (ofParts_coh h) ?_
  simp only [UnaryMapping.clauses, UnaryMapping.sparse, if_true, Bool.false_eq_true, if_false, List.append_nil]
  refine says_append (says_append (says_append (says_each fun i _ α => ?_) (says_ite fun _ => says_each fun j _ α => ?_))
    (says_each fun j _ α => ?_)) (says_ite fun _ => says_each fun i _ α => ?_)
  · rw [allTrue_geOne]; simp [mem_nbrL, and_assoc]
  · rw [allTrue_geOne]; simp [mem_nbrR, and_assoc]
  · rw [allTrue_leOne α (g.nbrR j) (fun i => fmt2 "p".toList i j) (hg.1.filter _)]
    simp only [mem_nbrR]
    exact ⟨fun h u hu u' hu' e e' => h u ⟨hu, e⟩ u' ⟨hu', e'⟩, fun h u hu u' hu' => h u hu.1 u' hu'.1 hu.2 hu'.2⟩
  · rw [allTrue_leOne α (g.nbrL i) (fmt2 "p".toList i) (hg.2.filter _)]
    simp only [mem_nbrL]
    exact ⟨fun h u hu u' hu' e e' => h u ⟨hu, e⟩ u' ⟨hu', e'⟩, fun h u hu u' hu' => h u hu.1 u' hu'.1 hu.2 hu'.2⟩

/-- **C82.** Binary pigeonhole formula: for each pigeon "the number of its hole is below the number of holes", for each hole and each two pigeons "not both are in
it". -/
theorem C82_binary_pigeonhole {pigeons holes bits : Nat} (hb : holes ≤ 2 ^ bits) {F : CNF Str} (h : binaryPigeonhole pigeons holes bits = pure F) :
    Says F.vars F.clauses
      ({φ | ∃ i ∈ oneTo pigeons, φ = fun α => binVal α (fmt2 "Y".toList i) bits < holes} ∪
       {φ | ∃ k < holes, ∃ i ∈ oneTo pigeons, ∃ i' ∈ oneTo pigeons, i < i' ∧
          φ = fun α => ¬ (binVal α (fmt2 "Y".toList i) bits = k ∧ binVal α (fmt2 "Y".toList i') bits = k)}) := by
  unfold binaryPigeonhole at h
  split at h
  · cases h
  let m : BinaryMapping Nat Nat Str := { domain := oneTo pigeons, range := oneTo holes, bits := bits, name := fmt2 "Y".toList, injective := true }
  have hl : (oneTo holes).length = holes := length_oneTo holes
  refine SaysLits.says (ofParts_coh h) ?_
  unfold BinaryMapping.clauses
  simp only [if_true, Bool.false_eq_true, if_false, List.append_nil]
  refine says_append (says_each fun i _ α => ?_) (SaysLits.congr (says_flatMap (Φ := fun j => {φ | ∃ p ∈ pairs (oneTo pigeons), φ = fun α =>
    ¬ (binVal α (fmt2 "Y".toList p.1) bits = (oneTo holes).idxOf j ∧ binVal α (fmt2 "Y".toList p.2) bits = (oneTo holes).idxOf j)})
    fun j hj => says_map fun p hp α => ?_) fun φ => ?_)
  · rw [allTrue_map]
    constructor
    · intro h
      by_contra hc
      have hlt : binVal α (fmt2 "Y".toList i) bits < (bitStrings bits).length := by rw [length_bitStrings]; exact BinaryMapping.binVal_lt _ _ _
      have hm : (bitStrings bits)[binVal α (fmt2 "Y".toList i) bits] ∈ (bitStrings bits).drop (oneTo holes).length := by
        rw [List.mem_iff_getElem]
        refine ⟨binVal α (fmt2 "Y".toList i) bits - (oneTo holes).length, by rw [List.length_drop]; omega, ?_⟩
        rw [List.getElem_drop]; congr 1; omega
      have := (BinaryMapping.forbid_true m α i _ (mem_bitStrings.1 (List.mem_of_mem_drop hm))).1 (h _ hm)
      rw [ofBits_getElem] at this
      exact this rfl
    · intro h bs hbs
      refine (BinaryMapping.forbid_true m α i _ (mem_bitStrings.1 (List.mem_of_mem_drop hbs))).2 ?_
      obtain ⟨k, hk, rfl⟩ := List.mem_iff_getElem.1 hbs
      rw [List.getElem_drop, ofBits_getElem]
      show binVal α (fmt2 "Y".toList i) bits ≠ _
      omega
  · rw [clauseTrue_append, BinaryMapping.forbidImage_true m (by rw [show m.range = oneTo holes from rfl, hl]; exact hb) α _ hj,
      BinaryMapping.forbidImage_true m (by rw [show m.range = oneTo holes from rfl, hl]; exact hb) α _ hj]
    show (binVal α (fmt2 "Y".toList p.1) bits ≠ (oneTo holes).idxOf j ∨ binVal α (fmt2 "Y".toList p.2) bits ≠ (oneTo holes).idxOf j) ↔ _
    tauto
  · have hidx : ∀ j ∈ oneTo holes, (oneTo holes).idxOf j = j - 1 := by
      intro j hj
      have hj := mem_oneTo.1 hj
      have hlt : j - 1 < (oneTo holes).length := by omega
      have e : (oneTo holes)[j - 1] = j := by simp [oneTo]; omega
      have := (oneTo_nodup holes).idxOf_getElem (j - 1) hlt
      rwa [e] at this
    simp only [Set.mem_ofPred_eq, Prod.exists, mem_pairs_sorted (oneTo_sorted _)]
    constructor
    · rintro ⟨j, hj, i, i', ⟨hi, hi', hlt⟩, rfl⟩
      refine ⟨j - 1, ?_, i, hi, i', hi', hlt, by rw [hidx j hj]⟩
      have := mem_oneTo.1 hj; omega
    · rintro ⟨k, hk, i, hi, i', hi', hlt, rfl⟩
      exact ⟨k + 1, mem_oneTo.2 ⟨by omega, by omega⟩, i, i', ⟨hi, hi', hlt⟩, by rw [hidx _ (mem_oneTo.2 ⟨by omega, by omega⟩)]; rfl⟩

/-- **C82.** Counting principle: for each number below `n`, "it is in exactly one of the sets chosen". -/
theorem C82_counting {n p : Nat} {F : CNF Str} (h : counting n p = pure F) :
    Says F.vars F.clauses {φ | ∃ e < n, φ = fun α => ∃ t : List Nat, (t.Pairwise (· < ·) ∧ (∀ e ∈ t, e < n) ∧ t.length = p) ∧ e ∈ t ∧
      α (tupleName t) = true ∧ ∀ s : List Nat, s.Pairwise (· < ·) ∧ (∀ e ∈ s, e < n) ∧ s.length = p → e ∈ s → α (tupleName s) = true → s = t} := by
  have hsub : ∀ t : List Nat, t.Sublist (List.range n) ↔ t.Pairwise (· < ·) ∧ ∀ e ∈ t, e < n := by
    intro t
    constructor
    · intro hs; exact ⟨List.pairwise_lt_range.sublist hs, fun e he => List.mem_range.1 (hs.subset he)⟩
    · rintro ⟨h1, h2⟩
      apply List.sublist_of_subperm_of_pairwise (r := (· < ·)) _ h1 List.pairwise_lt_range
      exact List.subperm_of_subset (h1.imp fun h => Nat.ne_of_lt h) fun e he => List.mem_range.2 (h2 e he)
  unfold counting at h
  refine SaysLits.says (ofClauses_coh h) (SaysLits.congr (says_each fun e he α => ?_) fun φ => by simp only [Set.mem_ofPred_eq, List.mem_range]; rfl)
  simp only [allTrue_eqOne _ _ _ (incidence_nodup n p _), mem_incidence, hsub]
  refine ⟨?_, ?_⟩
  · rintro ⟨t, ⟨⟨h1, h2⟩, h3, h4⟩, ha, hu⟩
    exact ⟨t, ⟨h1, h2, h3⟩, h4, ha, fun s hs he => hu s ⟨⟨hs.1, hs.2.1⟩, hs.2.2, he⟩⟩
  · rintro ⟨t, ⟨h1, h2, h3⟩, h4, ha, hu⟩
    exact ⟨t, ⟨⟨h1, h2⟩, h3, h4⟩, ha, fun s hs => hu s ⟨hs.1.1, hs.1.2, hs.2.1⟩ hs.2.2⟩

/-- **C82.** Perfect matching: for each vertex, "it is in exactly one of the edges chosen". -/
theorem C82_perfect_matching {g : Graph} (hg : g.Wf) {F : CNF Str} (h : perfectMatching g = pure F) :
    Says F.vars F.clauses {φ | ∃ v ∈ g.verts, φ = fun α => ∃ u, g.hasEdge u v = true ∧ α (xn (min u v) (max u v)) = true ∧
      ∀ w, g.hasEdge w v = true → α (xn (min w v) (max w v)) = true → w = u} := by
  have hen : ∀ u v, edgeName u v = xn (min u v) (max u v) := by
    intro u v; unfold edgeName; split
    · rw [min_eq_left ‹_›, max_eq_right ‹_›]
    · rw [min_eq_right (by omega), max_eq_left (by omega)]
  unfold perfectMatching at h
  refine SaysLits.says (ofClauses_coh h) (says_each fun v hv α => ?_)
  have hnn : ∀ v, (g.neighbors v).Nodup := fun v => hg.verts_nodup.filter _
  simp only [allTrue_eqOne _ _ _ (hnn _), Graph.mem_neighbors, hen]
  refine ⟨?_, ?_⟩
  · rintro ⟨u, ⟨_, h1⟩, ha, hu⟩
    exact ⟨u, h1, ha, fun w hw => hu w ⟨(hg.hasEdge_mem hw).1, hw⟩⟩
  · rintro ⟨u, h1, ha, hu⟩
    exact ⟨u, ⟨(hg.hasEdge_mem h1).1, h1⟩, ha, fun w hw => hu w hw.2⟩

theorem tse_count {g : Graph} (hg : g.Wf) (α : Str → Bool) (v : Nat) : nTrue α ((g.neighbors v).map fun u => tseName g u v) =
    ((g.at v).filter fun e => α (fmt2 "E".toList e.1 e.2)).length := by
  unfold nTrue
  have hp : List.Perm ((g.neighbors v).map fun u => tseName g u v) ((g.at v).map fun e => fmt2 "E".toList e.1 e.2) := by
    refine (List.perm_ext_iff_of_nodup (tseVars_nodup hg v) (List.Nodup.map (fun a b e => fmt2_injective _ e) (hg.nodup.filter _))).2 ?_
    intro x
    simp only [tseVars, List.mem_map, Graph.at, List.mem_filter, decide_eq_true_eq, Graph.mem_neighbors]
    constructor
    · rintro ⟨u, ⟨_, hu⟩, rfl⟩
      unfold tseName
      split
      · next he => exact ⟨_, ⟨he, .inr rfl⟩, rfl⟩
      · next he => exact ⟨_, ⟨(Graph.hasEdge_iff.1 hu).resolve_left he, .inl rfl⟩, rfl⟩
    · rintro ⟨e, ⟨he, hv | hv⟩, rfl⟩
      · refine ⟨e.2, ⟨(hg.ends e he).2.1, Graph.hasEdge_iff.2 (.inr (by rw [← hv]; exact he))⟩, ?_⟩
        unfold tseName
        rw [if_neg (by rw [← hv]; exact hg.once e he), hv]
      · refine ⟨e.1, ⟨(hg.ends e he).1, Graph.hasEdge_iff.2 (.inl (by rw [← hv]; exact he))⟩, ?_⟩
        unfold tseName
        rw [if_pos (by rw [← hv]; exact he), hv]
  rw [(hp.filter _).length_eq, List.filter_map, List.length_map]
  rfl

/-- **C82.** Tseitin formula: for each vertex, "the number of true edges at it is odd" or "even", as its charge says (vertices beyond the list of charges have
charge 0). -/
theorem C82_tseitin {g : Graph} (hg : g.Wf) {charges : List Bool} {F : CNF Str} (h : tseitin g (some charges) = pure F) :
    Says F.vars F.clauses {φ | ∃ v ∈ g.verts, φ = fun α =>
      ((g.at v).filter fun e => α (fmt2 "E".toList e.1 e.2)).length % 2 = if charges.getD (g.verts.idxOf v) false then 1 else 0} := by
  unfold tseitin at h
  refine SaysLits.says (ofPartsStrict_coh h) (SaysLits.congr (says_each (φ := fun p α => ((g.at p.1).filter fun e => α (fmt2 "E".toList e.1 e.2)).length % 2 =
    if p.2 then 1 else 0) fun p hp α => ?_) fun φ => ?_)
  · rw [C48_parity, tse_count hg]
  · simp only [Set.mem_ofPred_eq]
    constructor
    · rintro ⟨p, hp, rfl⟩
      obtain ⟨h1, h2⟩ := (tse_zip hg charges p).1 hp
      exact ⟨p.1, h1, by rw [h2]⟩
    · rintro ⟨v, hv, rfl⟩
      exact ⟨(v, charges.getD (g.verts.idxOf v) false), (tse_zip hg charges _).2 ⟨hv, rfl⟩, rfl⟩

/-- **C82.** Coloring: for each vertex "it has a color" (and, if functional, for each two colors, "not both"), for each edge and each color "not both ends have it". -/
theorem C82_coloring {g : Graph} {colors : List Nat} (hcol : colors.Nodup) {functional : Bool} {F : CNF Str}
    (h : graphColoring g colors functional = pure F) :
    Says F.vars F.clauses
      ({φ | ∃ v ∈ g.verts, φ = fun α => ∃ c ∈ colors, α (xn v c) = true} ∪
       {φ | functional = true ∧ ∃ v ∈ g.verts, ∃ c ∈ colors, ∃ d ∈ colors, c ≠ d ∧ φ = fun α => ¬ (α (xn v c) = true ∧ α (xn v d) = true)} ∪
       {φ | ∃ e ∈ g.edges, ∃ c ∈ colors, φ = fun α => ¬ (α (xn e.1 c) = true ∧ α (xn e.2 c) = true)}) := by
  unfold graphColoring at h
  have hc := addMixed_coh h
  rw [List.map_append, List.map_flatMap, List.map_flatMap] at hc
  refine SaysLits.says hc (SaysLits.congr (says_append (Φ := {φ | ∃ v ∈ g.verts, φ ∈ ({fun α => ∃ c ∈ colors, α (xn v c) = true} ∪
      {φ | functional = true ∧ φ ∈ {φ : (Str → Bool) → Prop | ∃ p ∈ pairs colors, φ = fun α => ¬ (α (xn v p.1) = true ∧ α (xn v p.2) = true)}} : Set _)})
    (Ψ := {φ | ∃ e ∈ g.edgeList, φ ∈ {φ : (Str → Bool) → Prop | ∃ c ∈ colors, φ = fun α => ¬ (α (xn e.1 c) = true ∧ α (xn e.2 c) = true)}})
    (says_flatMap fun v _ => ?_) (says_flatMap fun e _ => ?_)) fun φ => ?_)
  · unfold colorVertex
    rw [List.map_cons]
    refine says_append (cs := [_]) (says_one fun α => ?_) ?_
    · rw [allTrue_cons]
      simp only [allTrue_nil, and_true, ClauseTrue, List.mem_map]
      constructor
      · rintro ⟨_, ⟨c, hc, rfl⟩, ha⟩; exact ⟨c, hc, ha⟩
      · rintro ⟨c, hc, ha⟩; exact ⟨_, ⟨c, hc, rfl⟩, ha⟩
    · rw [show ((if functional = true then (pairs colors).map fun p => (true, [((false, xn v p.1) : Lit Str), (false, xn v p.2)]) else []).map Prod.snd :
        List (List (Lit Str))) = if functional = true then (pairs colors).map fun p => [((false, xn v p.1) : Lit Str), (false, xn v p.2)] else [] by
        cases functional <;> simp]
      refine says_ite fun _ => says_map fun p _ α => ?_
      simp only [clauseTrue_cons, clauseTrue_nil, or_false]
      cases α (xn v p.1) <;> cases α (xn v p.2) <;> simp
  · unfold colorEdge
    rw [List.map_map]
    refine says_map fun c _ α => ?_
    simp only [Function.comp, clauseTrue_cons, clauseTrue_nil, or_false]
    cases α (xn e.1 c) <;> cases α (xn e.2 c) <;> simp
  · simp only [Set.mem_union, Set.mem_ofPred_eq, Set.mem_singleton_iff, mem_edgeList]
    refine or_congr ?_ Iff.rfl
    constructor
    · rintro ⟨v, hv, h | ⟨hf, p, hp, h⟩⟩
      · exact .inl ⟨v, hv, h⟩
      · have hs := (mem_pairs (x := p.1) (y := p.2)).1 hp
        exact .inr ⟨hf, v, hv, p.1, hs.subset (by simp), p.2, hs.subset (by simp), by simpa using hs.nodup hcol, h⟩
    · rintro (⟨v, hv, h⟩ | ⟨hf, v, hv, c, hc, d, hd, hne, rfl⟩)
      · exact ⟨v, hv, .inl h⟩
      · refine ⟨v, hv, .inr ⟨hf, ?_⟩⟩
        rcases pair_sublist hc hd hne with hs | hs
        · exact ⟨(c, d), mem_pairs.2 hs, rfl⟩
        · exact ⟨(d, c), mem_pairs.2 hs, by funext α; rw [and_comm]⟩

/-- **C82.** Even coloring: for each vertex, "half of the edges at it are true". -/
theorem C82_even_coloring {g : Graph} (hg : g.Wf) {F : CNF Str} (h : evenColoring g = pure F) :
    Says F.vars F.clauses {φ | ∃ v ∈ g.verts, φ = fun α => 2 * ((g.at v).filter fun e => α (xn (min e.1 e.2) (max e.1 e.2))).length = (g.at v).length} := by
  have hen : ∀ u v, edgeName u v = xn (min u v) (max u v) := by
    intro u v; unfold edgeName; split
    · rw [min_eq_left ‹_›, max_eq_right ‹_›]
    · rw [min_eq_right (by omega), max_eq_left (by omega)]
  unfold evenColoring at h
  split at h
  · cases h
  rename_i hev
  refine SaysLits.says (ofPartsStrict_coh h) (says_each fun v hv α => ?_)
  simp only [C48_equal_to, nTrue_at hg, length_at hg]
  simp only [hen]
  have : (g.at v).length % 2 = 0 := by
    by_contra hne
    exact hev ⟨v, hv, by rw [length_at hg]; omega⟩
  omega

/-- **C82.** Ramsey formula: for each `s` vertices "two of them are connected", for each `k` vertices "two of them are not". -/
theorem C82_ramsey {s k n : Nat} {F : CNF Str} (h : ramsey s k n = pure F) :
    Says F.vars F.clauses
      ({φ | ∃ S : Finset Nat, (∀ v ∈ S, 1 ≤ v ∧ v ≤ n) ∧ S.card = s ∧ φ = fun α => ∃ u ∈ S, ∃ v ∈ S, u < v ∧ α (fmt2 "e".toList u v) = true} ∪
       {φ | ∃ S : Finset Nat, (∀ v ∈ S, 1 ≤ v ∧ v ≤ n) ∧ S.card = k ∧ φ = fun α => ∃ u ∈ S, ∃ v ∈ S, u < v ∧ α (fmt2 "e".toList u v) = false}) := by
  have key : ∀ (b : Bool) (m : Nat), SaysLits ((combinations (oneTo n) m).map (fun vs => (pairs vs).map fun e => ((b, fmt2 "e".toList e.1 e.2) : Lit Str)))
      {φ | ∃ S : Finset Nat, (∀ v ∈ S, 1 ≤ v ∧ v ≤ n) ∧ S.card = m ∧ φ = fun α => ∃ u ∈ S, ∃ v ∈ S, u < v ∧ α (fmt2 "e".toList u v) = b} := by
    intro b m
    refine SaysLits.congr (says_map (φ := fun vs α => ∃ u ∈ vs, ∃ v ∈ vs, u < v ∧ α (fmt2 "e".toList u v) = b) fun vs hvs α => ?_) fun φ => ?_
    · have hs : vs.Pairwise (· < ·) := (oneTo_sorted n).sublist (mem_combinations.1 hvs).1
      simp only [ClauseTrue, List.mem_map]
      constructor
      · rintro ⟨_, ⟨e, he, rfl⟩, ha⟩
        obtain ⟨hu, hv, hl⟩ := (mem_pairs_sorted hs (x := e.1) (y := e.2)).1 he
        exact ⟨e.1, hu, e.2, hv, hl, ha⟩
      · rintro ⟨u, hu, v, hv, hl, ha⟩; exact ⟨_, ⟨(u, v), (mem_pairs_sorted hs).2 ⟨hu, hv, hl⟩, rfl⟩, ha⟩
    · simp only [Set.mem_ofPred_eq]
      constructor
      · rintro ⟨vs, hvs, rfl⟩
        obtain ⟨h1, h2⟩ := mem_combinations.1 hvs
        exact ⟨vs.toFinset, fun v hv => mem_oneTo.1 (h1.subset (by simpa using hv)), by rw [List.toFinset_card_of_nodup ((oneTo_nodup n).sublist h1), h2], by simp⟩
      · rintro ⟨S, hS, hk, rfl⟩
        have hs : (S.sort (· ≤ ·)).Pairwise (· < ·) := S.sortedLT_sort.pairwise
        have hsub : (S.sort (· ≤ ·)).Sublist (oneTo n) := by
          apply List.sublist_of_subperm_of_pairwise (r := (· < ·)) _ hs (oneTo_sorted n)
          apply List.subperm_of_subset (Finset.sort_nodup _ _)
          intro v hv
          rw [Finset.mem_sort] at hv
          exact mem_oneTo.2 (hS v hv)
        exact ⟨_, mem_combinations.2 ⟨hsub, by simpa using hk⟩, by simp⟩
  unfold ramsey at h
  exact SaysLits.says (ofPartsStrict_coh h) (says_append (key true s) (key false k))

/-- **C82.** Clique and coloring: for each `i` up to `k`, "exactly one vertex is number `i` of the clique"; for each vertex and each two numbers, "it has not both"; for
each two vertices and each two numbers, "with these numbers they are connected"; for each vertex, "exactly one color"; for each two vertices and each color, "if they are
connected not both have it". -/
theorem C82_clique_coloring {n k c : Nat} {F : CNF Str} (h : cliqueColoring n k c = pure F) :
    Says F.vars F.clauses
      ({φ | ∃ i ∈ oneTo k, φ = fun α => ∃ v ∈ oneTo n, α (fmt2 ['q'] i v) = true ∧ ∀ w ∈ oneTo n, α (fmt2 ['q'] i w) = true → w = v} ∪
       {φ | ∃ v ∈ oneTo n, ∃ i ∈ oneTo k, ∃ j ∈ oneTo k, i < j ∧ φ = fun α => ¬ (α (fmt2 ['q'] i v) = true ∧ α (fmt2 ['q'] j v) = true)} ∪
       {φ | ∃ u ∈ oneTo n, ∃ v ∈ oneTo n, u < v ∧ ∃ i ∈ oneTo k, ∃ j ∈ oneTo k, i ≠ j ∧
          φ = fun α => α (fmt2 ['q'] i u) = true → α (fmt2 ['q'] j v) = true → α (fmt2 ['e'] u v) = true} ∪
       {φ | ∃ v ∈ oneTo n, φ = fun α => ∃ l ∈ oneTo c, α (fmt2 ['r'] v l) = true ∧ ∀ m ∈ oneTo c, α (fmt2 ['r'] v m) = true → m = l} ∪
       {φ | ∃ u ∈ oneTo n, ∃ v ∈ oneTo n, u < v ∧ ∃ l ∈ oneTo c,
          φ = fun α => α (fmt2 ['e'] u v) = true → ¬ (α (fmt2 ['r'] u l) = true ∧ α (fmt2 ['r'] v l) = true)}) := by
  unfold cliqueColoring at h
  refine SaysLits.says (ofPartsStrict_coh h) ?_
  unfold ccClauses
  refine says_append (says_append (says_append (says_append ?_ ?_) ?_) ?_) ?_
  · exact says_each fun i _ α => allTrue_eqOne α _ (fun v => ccQ i v) (oneTo_nodup _)
  · refine SaysLits.congr (says_flatMap (Φ := fun v => {φ | ∃ p ∈ pairs (oneTo k), φ = fun α => ¬ (α (ccQ p.1 v) = true ∧ α (ccQ p.2 v) = true)})
      fun v _ => says_map fun p _ α => ?_) fun φ => ?_
    · simp only [clauseTrue_cons, clauseTrue_nil, or_false]
      cases α (ccQ p.1 v) <;> cases α (ccQ p.2 v) <;> simp
    · simp only [Set.mem_ofPred_eq, Prod.exists, mem_pairs_sorted (oneTo_sorted _)]
      constructor
      · rintro ⟨v, hv, i, j, ⟨hi, hj, hl⟩, rfl⟩; exact ⟨v, hv, i, hi, j, hj, hl, rfl⟩
      · rintro ⟨v, hv, i, hi, j, hj, hl, rfl⟩; exact ⟨v, hv, i, j, ⟨hi, hj, hl⟩, rfl⟩
  · refine SaysLits.congr (says_flatMap (Φ := fun e : Nat × Nat => {φ | ∃ p ∈ permPairs (oneTo k), φ = fun α =>
        α (ccQ p.1 e.1) = true → α (ccQ p.2 e.2) = true → α (ccE e.1 e.2) = true}) fun e _ => says_map fun p _ α => ?_) fun φ => ?_
    · simp only [clauseTrue_cons, clauseTrue_nil, or_false]
      cases α (ccQ p.1 e.1) <;> cases α (ccQ p.2 e.2) <;> cases α (ccE e.1 e.2) <;> simp
    · simp only [Set.mem_ofPred_eq, Prod.exists, mem_pairs_sorted (oneTo_sorted _), mem_permPairs (oneTo_nodup _)]
      constructor
      · rintro ⟨u, v, ⟨hu, hv, hl⟩, i, j, ⟨hi, hj, hne⟩, rfl⟩
        exact ⟨u, hu, v, hv, hl, i, hi, j, hj, hne, by rw [ccE_lt hl]; rfl⟩
      · rintro ⟨u, hu, v, hv, hl, i, hi, j, hj, hne, rfl⟩
        exact ⟨u, v, ⟨hu, hv, hl⟩, i, j, ⟨hi, hj, hne⟩, by rw [ccE_lt hl]; rfl⟩
  · exact says_each fun v _ α => allTrue_eqOne α _ (fun l => ccR v l) (oneTo_nodup _)
  · refine SaysLits.congr (says_flatMap (Φ := fun e : Nat × Nat => {φ | ∃ l ∈ oneTo c, φ = fun α =>
        α (ccE e.1 e.2) = true → ¬ (α (ccR e.1 l) = true ∧ α (ccR e.2 l) = true)}) fun e _ => says_map fun l _ α => ?_) fun φ => ?_
    · simp only [clauseTrue_cons, clauseTrue_nil, or_false]
      cases α (ccR e.1 l) <;> cases α (ccR e.2 l) <;> cases α (ccE e.1 e.2) <;> simp
    · simp only [Set.mem_ofPred_eq, Prod.exists, mem_pairs_sorted (oneTo_sorted _)]
      constructor
      · rintro ⟨u, v, ⟨hu, hv, hl⟩, l, hlc, rfl⟩
        exact ⟨u, hu, v, hv, hl, l, hlc, by rw [ccE_lt hl]; rfl⟩
      · rintro ⟨u, hu, v, hv, hl, l, hlc, rfl⟩
        exact ⟨u, v, ⟨hu, hv, hl⟩, l, hlc, by rw [ccE_lt hl]; rfl⟩

/-- **C82.** Subset cardinality: for each left vertex "at least half of its edges are chosen", for each right vertex "at most half" (exactly half, rounded, with equations). -/
theorem C82_subset_cardinality {g : BiGraph} {equalities : Bool} {F : CNF Str} (h : subsetCardinality g equalities = pure F) :
    Says F.vars F.clauses
      ({φ | ∃ u ∈ g.left, φ = fun α => if equalities then g.chosenL (fun u v => α (xn (min u v) (max u v))) u = ((g.nbrL u).length + 1) / 2
          else (g.nbrL u).length ≤ 2 * g.chosenL (fun u v => α (xn (min u v) (max u v))) u} ∪
       {φ | ∃ v ∈ g.right, φ = fun α => if equalities then g.chosenR (fun u v => α (xn (min u v) (max u v))) v = (g.nbrR v).length / 2
          else 2 * g.chosenR (fun u v => α (xn (min u v) (max u v))) v ≤ (g.nbrR v).length}) := by
  have hen : ∀ u v, xn (min u v) (max u v) = edgeName u v := by
    intro u v; unfold edgeName; split
    · rw [min_eq_left ‹_›, max_eq_right ‹_›]
    · rw [min_eq_right (by omega), max_eq_left (by omega)]
  unfold subsetCardinality at h
  simp only [hen]
  refine SaysLits.says (ofPartsStrict_coh h) (says_append (says_each fun u _ α => ?_) (says_each fun u _ α => ?_))
  · cases equalities
    · simp only [Bool.false_eq_true, if_false]
      rw [looseMajority, C48_greater_or_equal, nTrue_map_sc, List.length_map]
      unfold BiGraph.chosenL; dsimp only; omega
    · simp only [if_true]
      rw [exactlyHalfCeil, C48_equal_to, nTrue_map_sc, List.length_map]
      unfold BiGraph.chosenL; dsimp only; omega
  · cases equalities
    · simp only [Bool.false_eq_true, if_false]
      rw [looseMinority, C48_less_or_equal, nTrue_map_sc, List.length_map]
      unfold BiGraph.chosenR; dsimp only; omega
    · simp only [if_true]
      rw [exactlyHalfFloor, C48_equal_to, nTrue_map_sc, List.length_map]
      unfold BiGraph.chosenR; dsimp only; omega

/-- The constraints of an isomorphism: everything is mapped to something and something is mapped to everything; nothing is mapped to two, no two to one; and no
two are mapped to two others if only the ones or only the others are connected. -/
def isoRules (g1 g2 : Graph) : Set ((Str → Bool) → Prop) :=
  {φ | ∃ u ∈ g1.verts, φ = fun α => ∃ v ∈ g2.verts, α (fmt2 ['x'] u v) = true} ∪
  {φ | ∃ v ∈ g2.verts, φ = fun α => ∃ u ∈ g1.verts, α (fmt2 ['x'] u v) = true} ∪
  {φ | ∃ u ∈ g1.verts, ∃ v ∈ g2.verts, ∃ w ∈ g2.verts, v < w ∧ φ = fun α => ¬ (α (fmt2 ['x'] u v) = true ∧ α (fmt2 ['x'] u w) = true)} ∪
  {φ | ∃ v ∈ g2.verts, ∃ u ∈ g1.verts, ∃ w ∈ g1.verts, u < w ∧ φ = fun α => ¬ (α (fmt2 ['x'] u v) = true ∧ α (fmt2 ['x'] w v) = true)} ∪
  {φ | ∃ u ∈ g1.verts, ∃ u' ∈ g1.verts, u < u' ∧ ∃ v ∈ g2.verts, ∃ v' ∈ g2.verts, v ≠ v' ∧ g1.hasEdge u u' ≠ g2.hasEdge v v' ∧
    φ = fun α => ¬ (α (fmt2 ['x'] u v) = true ∧ α (fmt2 ['x'] u' v') = true)}

theorem says_iso {g1 g2 : Graph} (h1 : g1.Wf) (h2 : g2.Wf) : SaysLits (isoMap g1.verts g2.verts ++ isoEdges g1 g2) (isoRules g1 g2) := by
  have hor : ∀ (l : List Nat) (f : Nat → Str) (α : Str → Bool), ClauseTrue α (l.map fun v => (true, f v)) ↔ ∃ v ∈ l, α (f v) = true := by
    intro l f α
    simp only [ClauseTrue, List.mem_map]
    constructor
    · rintro ⟨_, ⟨v, hv, rfl⟩, ha⟩; exact ⟨v, hv, ha⟩
    · rintro ⟨v, hv, ha⟩; exact ⟨_, ⟨v, hv, rfl⟩, ha⟩
  have hno : ∀ (x y : Str) (α : Str → Bool), ClauseTrue α [(false, x), (false, y)] ↔ ¬ (α x = true ∧ α y = true) := by
    intro x y α
    simp only [clauseTrue_cons, clauseTrue_nil, or_false]
    cases α x <;> cases α y <;> simp
  unfold isoMap isoEdges isoRules
  refine says_append (says_append (says_append (says_append (says_map fun u _ α => hor _ _ α) (says_map fun v _ α => hor _ _ α)) ?_) ?_) ?_
  · refine SaysLits.congr (says_flatMap (Φ := fun u => {φ | ∃ p ∈ pairs g2.verts, φ = fun α => ¬ (α (isoVar u p.1) = true ∧ α (isoVar u p.2) = true)})
      fun u _ => says_map fun p _ α => hno _ _ α) fun φ => ?_
    simp only [Set.mem_ofPred_eq, Prod.exists, mem_pairs_sorted h2.sorted]
    constructor
    · rintro ⟨u, hu, v, w, ⟨hv, hw, hl⟩, rfl⟩; exact ⟨u, hu, v, hv, w, hw, hl, rfl⟩
    · rintro ⟨u, hu, v, hv, w, hw, hl, rfl⟩; exact ⟨u, hu, v, w, ⟨hv, hw, hl⟩, rfl⟩
  · refine SaysLits.congr (says_flatMap (Φ := fun v => {φ | ∃ p ∈ pairs g1.verts, φ = fun α => ¬ (α (isoVar p.1 v) = true ∧ α (isoVar p.2 v) = true)})
      fun u _ => says_map fun p _ α => hno _ _ α) fun φ => ?_
    simp only [Set.mem_ofPred_eq, Prod.exists, mem_pairs_sorted h1.sorted]
    constructor
    · rintro ⟨u, hu, v, w, ⟨hv, hw, hl⟩, rfl⟩; exact ⟨u, hu, v, hv, w, hw, hl, rfl⟩
    · rintro ⟨u, hu, v, hv, w, hw, hl, rfl⟩; exact ⟨u, hu, v, w, ⟨hv, hw, hl⟩, rfl⟩
  · refine SaysLits.congr (says_flatMap fun p _ => says_flatMap (Φ := fun q : Nat × Nat => {φ | g1.hasEdge p.1 p.2 ≠ g2.hasEdge q.1 q.2 ∧
        (φ = (fun α => ¬ (α (isoVar p.1 q.1) = true ∧ α (isoVar p.2 q.2) = true)) ∨ φ = fun α => ¬ (α (isoVar p.1 q.2) = true ∧ α (isoVar p.2 q.1) = true))}) fun q _ => ?_)
      fun φ => ?_
    · split
      · rename_i hne
        refine SaysLits.congr (says_append (cs := [_]) (ds := [_])
          (says_one (φ := fun α => ¬ (α (isoVar p.1 q.1) = true ∧ α (isoVar p.2 q.2) = true)) fun α => by
            rw [allTrue_cons, hno]; simp only [allTrue_nil, and_true])
          (says_one (φ := fun α => ¬ (α (isoVar p.1 q.2) = true ∧ α (isoVar p.2 q.1) = true)) fun α => by
            rw [allTrue_cons, hno]; simp only [allTrue_nil, and_true])) fun φ => ?_
        simp only [Set.mem_union, Set.mem_singleton_iff, Set.mem_ofPred_eq, hne, ne_eq, not_false_eq_true, true_and]
      · rename_i hne
        refine SaysLits.congr says_nil fun φ => ?_
        simp only [Set.mem_empty_iff_false, Set.mem_ofPred_eq, hne, false_and]
    · simp only [Set.mem_ofPred_eq, Prod.exists, mem_pairs_sorted h1.sorted, mem_pairs_sorted h2.sorted]
      have hc : ∀ v w, g2.hasEdge v w = g2.hasEdge w v := fun v w => Graph.hasEdge_comm ..
      constructor
      · rintro ⟨u, u', ⟨hu, hu', hl⟩, v, v', ⟨hv, hv', hl'⟩, hne, rfl | rfl⟩
        · exact ⟨u, hu, u', hu', hl, v, hv, v', hv', by omega, hne, rfl⟩
        · exact ⟨u, hu, u', hu', hl, v', hv', v, hv, by omega, by rw [hc]; exact hne, rfl⟩
      · rintro ⟨u, hu, u', hu', hl, v, hv, v', hv', hvne, hne, rfl⟩
        rcases Nat.lt_or_gt_of_ne hvne with hl' | hl'
        · exact ⟨u, u', ⟨hu, hu', hl⟩, v, v', ⟨hv, hv', hl'⟩, hne, .inl rfl⟩
        · exact ⟨u, u', ⟨hu, hu', hl⟩, v', v, ⟨hv', hv, hl'⟩, by rw [hc]; exact hne, .inr rfl⟩

/-- **C82.** Graph isomorphism. -/
theorem C82_isomorphism {g1 g2 : Graph} (h1 : g1.Wf) (h2 : g2.Wf) {F : CNF Str} (h : graphIsomorphism g1 g2 = pure F) :
    Says F.vars F.clauses (isoRules g1 g2) := by
  unfold graphIsomorphism at h
  exact SaysLits.says (ofPartsStrict_coh h) (says_iso h1 h2)

/-- **C82.** Graph automorphism: the constraints of an isomorphism to itself, and "not everything is mapped to itself". -/
theorem C82_automorphism {g : Graph} (hg : g.Wf) {F : CNF Str} (h : graphAutomorphism g = pure F) :
    Says F.vars F.clauses (isoRules g g ∪ {fun α => ∃ u ∈ g.verts, α (fmt2 ['x'] u u) = false}) := by
  unfold graphAutomorphism at h
  obtain ⟨G, hG, hF⟩ := M.bind_eq_pure.1 h
  unfold graphIsomorphism at hG
  refine SaysLits.says (addClause_coh (ofPartsStrict_coh hG) hF) (says_append (says_iso hg hg) (says_one fun α => ?_))
  rw [allTrue_cons]
  simp only [allTrue_nil, and_true, ClauseTrue, List.mem_map]
  constructor
  · rintro ⟨l, ⟨u, hu, rfl⟩, h⟩; exact ⟨u, hu, h⟩
  · rintro ⟨u, hu, h⟩; exact ⟨_, ⟨u, hu, rfl⟩, h⟩

end NDP.Cnfgen
