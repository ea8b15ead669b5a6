import Verif.Cnfgen.Clauses2
import Verif.Cnfgen.ToolProps
/-
  C82, concluded: Pythagorean triples, dominating sets, subgraphs; the clauses printed by `kthlist2pebbling` (C80); concrete cases.
-/
namespace NDP.Cnfgen
open NDP

/-- **C82.** Pythagorean triples: for each triple, "its numbers have not all the same color". -/
theorem C82_pythagorean {isqrt : Nat → Nat} {n : Nat} (hs : ∀ z ≤ n, isqrt (z ^ 2) = z) {F : CNF Str} (h : pythagorean isqrt n = pure F) :
    Says F.vars F.clauses {φ | ∃ x y z, 1 ≤ x ∧ x < y ∧ z ≤ n ∧ x ^ 2 + y ^ 2 = z ^ 2 ∧
      φ = fun α => ¬ (α (fmt1 "x".toList x) = α (fmt1 "x".toList y) ∧ α (fmt1 "x".toList y) = α (fmt1 "x".toList z))} := by
  unfold pythagorean at h
  refine SaysLits.says (ofPartsStrict_coh h) (SaysLits.congr (says_flatMap (Φ := fun p : Nat × Nat => {φ | isqrt (p.1 ^ 2 + p.2 ^ 2) ≤ n ∧
      isqrt (p.1 ^ 2 + p.2 ^ 2) ^ 2 = p.1 ^ 2 + p.2 ^ 2 ∧ φ = fun α => ¬ (α (fmt1 "x".toList p.1) = α (fmt1 "x".toList p.2) ∧
        α (fmt1 "x".toList p.2) = α (fmt1 "x".toList (isqrt (p.1 ^ 2 + p.2 ^ 2))))}) fun p _ => ?_) fun φ => ?_)
  · dsimp only
    split
    · rename_i hz
      refine SaysLits.congr (says_one (φ := fun α => ¬ (α (fmt1 "x".toList p.1) = α (fmt1 "x".toList p.2) ∧
        α (fmt1 "x".toList p.2) = α (fmt1 "x".toList (isqrt (p.1 ^ 2 + p.2 ^ 2))))) fun α => ?_) fun φ => ?_
      · rw [allTrue_cons, allTrue_cons]
        simp only [allTrue_nil, and_true, clauseTrue_cons, clauseTrue_nil, or_false]
        cases α (fmt1 "x".toList p.1) <;> cases α (fmt1 "x".toList p.2) <;> cases α (fmt1 "x".toList (isqrt (p.1 ^ 2 + p.2 ^ 2))) <;> simp
      · simp only [Set.mem_singleton_iff, Set.mem_ofPred_eq, hz.1, hz.2, true_and]
    · rename_i hz
      refine SaysLits.congr says_nil fun φ => ?_
      simp only [Set.mem_empty_iff_false, Set.mem_ofPred_eq, false_iff]
      exact fun h => hz ⟨h.1, h.2.1⟩
  · simp only [Set.mem_ofPred_eq, Prod.exists, oneTo_pairs]
    constructor
    · rintro ⟨x, y, ⟨h1, h2, h3⟩, h4, h5, rfl⟩
      exact ⟨x, y, _, (mem_oneTo.1 h1).1, h3, h4, h5.symm, rfl⟩
    · rintro ⟨x, y, z, h1, h2, h3, h4, rfl⟩
      have hz : isqrt (x ^ 2 + y ^ 2) = z := by rw [h4]; exact hs z h3
      have hy : y ≤ z := by
        by_contra hc
        have : z ^ 2 < y ^ 2 := Nat.pow_lt_pow_left (by omega) (by omega)
        omega
      refine ⟨x, y, ⟨mem_oneTo.2 ⟨h1, by omega⟩, mem_oneTo.2 ⟨by omega, by omega⟩, h2⟩, by rw [hz]; exact h3, by rw [hz]; exact h4.symm, by rw [hz]⟩

theorem clauseTrue_map_pos {ι : Type} (l : List ι) (f : ι → Str) (α : Str → Bool) :
    ClauseTrue α (l.map fun v => (true, f v)) ↔ ∃ v ∈ l, α (f v) = true := by
  simp only [ClauseTrue, List.mem_map]
  constructor
  · rintro ⟨l, ⟨v, hv, rfl⟩, ha⟩; exact ⟨v, hv, ha⟩
  · rintro ⟨v, hv, ha⟩; exact ⟨_, ⟨v, hv, rfl⟩, ha⟩

theorem clauseTrue_two_neg (x y : Str) (α : Str → Bool) : ClauseTrue α [(false, x), (false, y)] ↔ ¬ (α x = true ∧ α y = true) := by
  simp only [clauseTrue_cons, clauseTrue_nil, or_false]
  cases α x <;> cases α y <;> simp

theorem says_dom {g : Graph} : SaysLits ((neighborhoods g).map fun N => N.map fun v => (true, dsD v))
    {φ | ∃ v ∈ g.verts, φ = fun α => ∃ u, (u = v ∨ u ∈ g.verts ∧ g.hasEdge u v = true) ∧ α (fmt1 ['x'] u) = true} := by
  refine SaysLits.congr (says_map (φ := fun N α => ∃ u ∈ N, α (dsD u) = true) fun N _ α => clauseTrue_map_pos _ _ α) fun φ => ?_
  simp only [Set.mem_ofPred_eq, mem_neighborhoods]
  constructor
  · rintro ⟨N, ⟨v, hv, rfl⟩, rfl⟩; exact ⟨v, hv, by simp only [mem_closedNbhd]; rfl⟩
  · rintro ⟨v, hv, rfl⟩; exact ⟨_, ⟨v, hv, rfl⟩, by simp only [mem_closedNbhd]; rfl⟩

theorem says_dsSome (V : List Nat) (d : Nat) : SaysLits (V.map fun v => (false, dsD v) :: (oneTo d).map fun i => (true, dsM v i))
    {φ | ∃ v ∈ V, φ = fun α => α (fmt1 ['x'] v) = true → ∃ i ∈ oneTo d, α (fmt2 ['g'] v i) = true} := by
  refine says_map fun v _ α => ?_
  rw [clauseTrue_cons, clauseTrue_map_pos]
  show α (dsD v) = false ∨ _ ↔ (α (dsD v) = true → ∃ i ∈ oneTo d, α (dsM v i) = true)
  cases α (dsD v) <;> simp

/-- **C82.** Dominating set, plain variant: for each number, "at most one vertex has it"; for each two vertices and each two numbers in the wrong order, "they do not
have these"; for each vertex and number, "with a number it is in the set"; for each vertex, "in the set it has a number", and "it or a neighbour is in the set". -/
theorem C82_dominating_set {g : Graph} (hg : g.Wf) {d : Nat} {F : CNF Str} (h : dominatingSet g d false = pure F) :
    Says F.vars F.clauses
      ({φ | ∃ i ∈ oneTo d, φ = fun α => ∀ u ∈ g.verts, ∀ v ∈ g.verts, α (fmt2 ['g'] u i) = true → α (fmt2 ['g'] v i) = true → u = v} ∪
       {φ | ∃ i ∈ oneTo d, ∃ j ∈ oneTo d, i ≤ j ∧ ∃ u ∈ g.verts, ∃ v ∈ g.verts, u < v ∧
          φ = fun α => ¬ (α (fmt2 ['g'] v i) = true ∧ α (fmt2 ['g'] u j) = true)} ∪
       ({φ | ∃ i ∈ oneTo d, ∃ v ∈ g.verts, φ = fun α => α (fmt2 ['g'] v i) = true → α (fmt1 ['x'] v) = true} ∪
        {φ | ∃ v ∈ g.verts, φ = fun α => α (fmt1 ['x'] v) = true → ∃ i ∈ oneTo d, α (fmt2 ['g'] v i) = true}) ∪
       {φ | ∃ v ∈ g.verts, φ = fun α => ∃ u, (u = v ∨ u ∈ g.verts ∧ g.hasEdge u v = true) ∧ α (fmt1 ['x'] u) = true}) := by
  obtain ⟨_, hc⟩ := addAll_false_vars h (ds_known hg false d)
  refine SaysLits.says hc ?_
  unfold dsClauses dsIndex dsOrder dsLink
  simp only [Bool.false_eq_true, if_false]
  refine says_append (says_append (says_append ?_ ?_) (says_append ?_ (says_dsSome _ _))) says_dom
  · exact says_each fun i _ α => allTrue_leOne α _ (fun v => dsM v i) hg.verts_nodup
  · refine SaysLits.congr (says_flatMap (Φ := fun p : Nat × Nat => {φ | ∃ q ∈ pairs g.verts, φ = fun α =>
        ¬ (α (dsM (max q.1 q.2) (min p.1 p.2)) = true ∧ α (dsM (min q.1 q.2) (max p.1 p.2)) = true)})
      fun p _ => says_map fun q _ α => clauseTrue_two_neg _ _ α) fun φ => ?_
    simp only [Set.mem_ofPred_eq, Prod.exists, mem_pairs_sorted hg.sorted, mem_replPairs_sorted (oneTo_sorted d)]
    constructor
    · rintro ⟨i, j, ⟨hi, hj, hl⟩, u, v, ⟨hu, hv, hl'⟩, rfl⟩
      exact ⟨i, hi, j, hj, hl, u, hu, v, hv, hl', by
        rw [max_eq_right hl'.le, min_eq_left hl'.le, max_eq_right hl, min_eq_left hl]; rfl⟩
    · rintro ⟨i, hi, j, hj, hl, u, hu, v, hv, hl', rfl⟩
      exact ⟨i, j, ⟨hi, hj, hl⟩, u, v, ⟨hu, hv, hl'⟩, by
        rw [max_eq_right hl'.le, min_eq_left hl'.le, max_eq_right hl, min_eq_left hl]; rfl⟩
  · refine says_flatMap (Φ := fun i => {φ | ∃ v ∈ g.verts, φ = fun α => α (fmt2 ['g'] v i) = true → α (fmt1 ['x'] v) = true})
      fun i _ => says_map fun v _ α => ?_
    simp only [clauseTrue_cons, clauseTrue_nil, or_false]
    show α (dsM v i) = false ∨ α (dsD v) = true ↔ (α (dsM v i) = true → α (dsD v) = true)
    cases α (dsM v i) <;> simp

/-- **C82.** Dominating set, alternative variant: for each two vertices and each number, "if both are in the set they do not both have it"; for each vertex and each two
numbers, "in the set it has not both"; and for each vertex "in the set it has a number", "it or a neighbour is in the set". -/
theorem C82_dominating_set_alternative {g : Graph} (hg : g.Wf) {d : Nat} {F : CNF Str} (h : dominatingSet g d true = pure F) :
    Says F.vars F.clauses
      ({φ | ∃ u ∈ g.verts, ∃ v ∈ g.verts, u < v ∧ ∃ i ∈ oneTo d, φ = fun α => α (fmt1 ['x'] u) = true → α (fmt1 ['x'] v) = true →
          ¬ (α (fmt2 ['g'] u i) = true ∧ α (fmt2 ['g'] v i) = true)} ∪
       {φ | ∃ v ∈ g.verts, ∃ i ∈ oneTo d, ∃ j ∈ oneTo d, i < j ∧ φ = fun α => α (fmt1 ['x'] v) = true →
          ¬ (α (fmt2 ['g'] v i) = true ∧ α (fmt2 ['g'] v j) = true)} ∪
       {φ | ∃ v ∈ g.verts, φ = fun α => α (fmt1 ['x'] v) = true → ∃ i ∈ oneTo d, α (fmt2 ['g'] v i) = true} ∪
       {φ | ∃ v ∈ g.verts, φ = fun α => ∃ u, (u = v ∨ u ∈ g.verts ∧ g.hasEdge u v = true) ∧ α (fmt1 ['x'] u) = true}) := by
  obtain ⟨_, hc⟩ := addAll_false_vars h (ds_known hg true d)
  refine SaysLits.says hc ?_
  unfold dsClauses dsIndex dsOrder dsLink
  simp only [if_true, List.nil_append]
  refine says_append (says_append (says_append ?_ ?_) (says_dsSome _ _)) says_dom
  · refine SaysLits.congr (says_flatMap (Φ := fun p : Nat × Nat => {φ | ∃ i ∈ oneTo d, φ = fun α => α (dsD p.1) = true → α (dsD p.2) = true →
        ¬ (α (dsM p.1 i) = true ∧ α (dsM p.2 i) = true)})
      fun p _ => says_map fun i _ α => ?_) fun φ => ?_
    · simp only [clauseTrue_cons, clauseTrue_nil, or_false]
      cases α (dsD p.1) <;> cases α (dsD p.2) <;> cases α (dsM p.1 i) <;> cases α (dsM p.2 i) <;> simp
    · simp only [Set.mem_ofPred_eq, Prod.exists, mem_pairs_sorted hg.sorted]
      constructor
      · rintro ⟨u, v, ⟨hu, hv, hl⟩, i, hi, rfl⟩; exact ⟨u, hu, v, hv, hl, i, hi, rfl⟩
      · rintro ⟨u, hu, v, hv, hl, i, hi, rfl⟩; exact ⟨u, v, ⟨hu, hv, hl⟩, i, hi, rfl⟩
  · refine SaysLits.congr (says_flatMap (Φ := fun v => {φ | ∃ p ∈ pairs (oneTo d), φ = fun α => α (dsD v) = true →
        ¬ (α (dsM v p.1) = true ∧ α (dsM v p.2) = true)})
      fun v _ => says_map fun p _ α => ?_) fun φ => ?_
    · simp only [clauseTrue_cons, clauseTrue_nil, or_false]
      cases α (dsD v) <;> cases α (dsM v p.1) <;> cases α (dsM v p.2) <;> simp
    · simp only [Set.mem_ofPred_eq, Prod.exists, mem_pairs_sorted (oneTo_sorted d)]
      constructor
      · rintro ⟨v, hv, i, j, ⟨hi, hj, hl⟩, rfl⟩; exact ⟨v, hv, i, hi, j, hj, hl, rfl⟩
      · rintro ⟨v, hv, i, hi, j, hj, hl, rfl⟩; exact ⟨v, hv, i, j, ⟨hi, hj, hl⟩, rfl⟩

theorem idxOf_range {a n : Nat} (h : a < n) : (List.range n).idxOf a = a := by
  have := List.nodup_range.idxOf_getElem a (by simpa using h) (xs := List.range n)
  simpa using this

/-- **C82.** Subgraphs: (with three and more templates) "exactly one selector is true"; for each position, "it is placed", "at one place only"; for each vertex,
"at most one position is placed there"; (symmetric) for each two positions and each two places in the wrong order, "not there"; for each template, each two
positions of it and each two places — in any order, or, if symmetric, in order — that differ from them (edge or no edge), "the template is not active or they are
not placed there". -/
theorem C82_subgraph {g : Graph} {ts : List Graph} (ht : ts ≠ []) {sym : Bool} {F : CNF Str} (h : subgraph g ts sym = pure F) :
    Says F.vars F.clauses
      ({φ | 3 ≤ ts.length ∧ φ = fun α => ∃ i < ts.length, α (fmt1 ['c'] i) = true ∧ ∀ j < ts.length, α (fmt1 ['c'] j) = true → j = i} ∪
       ({φ | ∃ i < maxOrder ts, φ = fun α => ∃ a < g.verts.length, α (fmt2 ['S'] i a) = true} ∪
        {φ | ∃ a < g.verts.length, φ = fun α => ∀ i < maxOrder ts, ∀ j < maxOrder ts, α (fmt2 ['S'] i a) = true → α (fmt2 ['S'] j a) = true → i = j} ∪
        {φ | ∃ i < maxOrder ts, φ = fun α => ∀ a < g.verts.length, ∀ b < g.verts.length,
            α (fmt2 ['S'] i a) = true → α (fmt2 ['S'] i b) = true → a = b} ∪
        {φ | sym = true ∧ ∃ i j a b, i < j ∧ j < maxOrder ts ∧ a < g.verts.length ∧ b < a ∧
            φ = fun α => ¬ (α (fmt2 ['S'] i a) = true ∧ α (fmt2 ['S'] j b) = true)}) ∪
       {φ | ∃ k t, ts[k]? = some t ∧ ∃ i j a b, i < j ∧ j < t.verts.length ∧ a < g.verts.length ∧ b < g.verts.length ∧ a ≠ b ∧ (sym = true → a < b) ∧
            t.posEdge i j ≠ g.posEdge a b ∧ φ = fun α =>
              (ts.length = 2 ∧ k = 0 ∧ α ['c'] = true) ∨ (ts.length = 2 ∧ k = 1 ∧ α ['c'] = false) ∨ (3 ≤ ts.length ∧ α (fmt1 ['c'] k) = true) ∨
              ¬ (α (fmt2 ['S'] i a) = true ∧ α (fmt2 ['S'] j b) = true)}) := by
  obtain ⟨F', h', hc⟩ := subgraph_ok g ts sym ht
  obtain rfl := (M.pure_inj _ _).1 (h.symm.trans h')
  refine SaysLits.says hc ?_
  unfold subClauses
  have hlen : 1 ≤ ts.length := List.length_pos_iff.2 ht
  refine says_append (says_append ?_ ?_) ?_
  · by_cases h3 : 3 ≤ ts.length
    · have e : selectors ts.length = (List.range ts.length).map fun i => fmt1 ['c'] i := by
        unfold selectors; rw [if_neg (by omega), if_neg (by omega)]
      rw [e, if_pos (by simp; omega)]
      refine SaysLits.congr (says_one fun α => allTrue_eqOne α _ (fun i => fmt1 ['c'] i) List.nodup_range) fun φ => ?_
      simp only [Set.mem_singleton_iff, Set.mem_ofPred_eq, h3, true_and, List.mem_range]
    · have e : ¬ (selectors ts.length).length > 1 := by
        unfold selectors
        split
        · simp
        · rw [if_pos (by omega)]; simp
      rw [if_neg e]
      refine SaysLits.congr says_nil fun φ => ?_
      simp only [Set.mem_empty_iff_false, Set.mem_ofPred_eq, h3, false_and]
  · simp only [UnaryMapping.clauses, subMapping, UnaryMapping.full, if_true, Bool.false_eq_true, if_false, List.append_nil]
    refine says_append (says_append (says_append ?_ ?_) ?_) ?_
    · refine SaysLits.congr (says_each fun i _ α => allTrue_geOne α _) fun φ => ?_
      simp only [Set.mem_ofPred_eq, List.mem_map, List.mem_range, exists_exists_and_eq_and]
      rfl
    · refine SaysLits.congr (says_each fun a _ α => allTrue_leOne α _ (fun i => subVar i a) List.nodup_range) fun φ => ?_
      simp only [Set.mem_ofPred_eq, List.mem_range]
      rfl
    · refine SaysLits.congr (says_each fun i _ α => allTrue_leOne α _ (subVar i) List.nodup_range) fun φ => ?_
      simp only [Set.mem_ofPred_eq, List.mem_range]
      rfl
    · refine SaysLits.congr (says_ite fun _ => says_flatMap (Φ := fun p : Nat × Nat => {φ | ∃ a ∈ List.range g.verts.length, ∃ b ∈ List.range g.verts.length,
          b < a ∧ φ = fun α => ¬ (α (subVar p.1 a) = true ∧ α (subVar p.2 b) = true)}) fun p _ => ?_) fun φ => ?_
      · refine SaysLits.congr (says_flatMap (Φ := fun a => {φ | ∃ b ∈ (List.range g.verts.length).filter fun j =>
            decide ((List.range g.verts.length).idxOf a > (List.range g.verts.length).idxOf j),
            φ = fun α => ¬ (α (subVar p.1 a) = true ∧ α (subVar p.2 b) = true)}) fun a _ => says_map fun b _ α => clauseTrue_two_neg _ _ α) fun φ => ?_
        simp only [Set.mem_ofPred_eq, List.mem_filter, decide_eq_true_eq]
        constructor
        · rintro ⟨a, ha, b, ⟨hb, hl⟩, rfl⟩
          rw [idxOf_range (List.mem_range.1 ha), idxOf_range (List.mem_range.1 hb)] at hl
          exact ⟨a, ha, b, hb, hl, rfl⟩
        · rintro ⟨a, ha, b, hb, hl, rfl⟩
          refine ⟨a, ha, b, ⟨hb, ?_⟩, rfl⟩
          rw [idxOf_range (List.mem_range.1 ha), idxOf_range (List.mem_range.1 hb)]
          exact hl
      · simp only [Set.mem_ofPred_eq, Prod.exists, mem_pairs_sorted List.pairwise_lt_range, List.mem_range]
        refine and_congr_right fun _ => ?_
        constructor
        · rintro ⟨i, j, ⟨hi, hj, hl⟩, a, ha, b, hb, hl', rfl⟩; exact ⟨i, j, a, b, hl, hj, ha, hl', rfl⟩
        · rintro ⟨i, j, a, b, hl, hj, ha, hl', rfl⟩; exact ⟨i, j, ⟨by omega, hj, hl⟩, a, ha, b, by omega, hl', rfl⟩
  · refine SaysLits.congr (says_flatMap (Φ := fun ti : Graph × Nat => {φ | ∃ i j a b, i < j ∧ j < ti.1.verts.length ∧ a < g.verts.length ∧ b < g.verts.length ∧
          a ≠ b ∧ (sym = true → a < b) ∧ ti.1.posEdge i j ≠ g.posEdge a b ∧ φ = fun α =>
              (ts.length = 2 ∧ ti.2 = 0 ∧ α ['c'] = true) ∨ (ts.length = 2 ∧ ti.2 = 1 ∧ α ['c'] = false) ∨ (3 ≤ ts.length ∧ α (fmt1 ['c'] ti.2) = true) ∨
              ¬ (α (fmt2 ['S'] i a) = true ∧ α (fmt2 ['S'] j b) = true)}) fun ti hti => ?_) fun φ => ?_
    · obtain ⟨t, k⟩ := ti
      have hk : k < ts.length := by
        have := List.mem_zipIdx_iff_getElem?.1 hti
        exact (List.getElem?_eq_some_iff.1 this).1
      unfold templateClauses
      refine SaysLits.congr (says_flatMap (Φ := fun p : Nat × Nat => {φ | ∃ q ∈ (if sym then pairs (List.range g.verts.length) else permPairs (List.range g.verts.length)).filter fun q =>
          decide (t.posEdge p.1 p.2 ≠ g.posEdge q.1 q.2), φ = fun α =>
              (ts.length = 2 ∧ k = 0 ∧ α ['c'] = true) ∨ (ts.length = 2 ∧ k = 1 ∧ α ['c'] = false) ∨ (3 ≤ ts.length ∧ α (fmt1 ['c'] k) = true) ∨
              ¬ (α (fmt2 ['S'] p.1 q.1) = true ∧ α (fmt2 ['S'] p.2 q.2) = true)}) fun p _ => says_map fun q _ α => ?_) fun φ => ?_
      · rw [clauseTrue_append, clauseTrue_two_neg]
        rw [show (ClauseTrue α (activation ts.length k) ↔ (ts.length = 2 ∧ k = 0 ∧ α ['c'] = true) ∨ (ts.length = 2 ∧ k = 1 ∧ α ['c'] = false) ∨
          (3 ≤ ts.length ∧ α (fmt1 ['c'] k) = true)) from ?_]
        · simp only [subVar, or_assoc]
        · unfold activation
          split
          · rename_i h1
            simp [clauseTrue_nil, h1]
          · split
            · rename_i h2
              split
              · rename_i h0
                simp [clauseTrue_cons, clauseTrue_nil, h2, h0]
              · have : k = 1 := by omega
                simp [clauseTrue_cons, clauseTrue_nil, h2, this]
            · have h3 : 3 ≤ ts.length := by omega
              rename_i h2
              simp [clauseTrue_cons, clauseTrue_nil, h2, h3]
      · have hq : ∀ a b, (a, b) ∈ (if sym then pairs (List.range g.verts.length) else permPairs (List.range g.verts.length)) ↔
            a < g.verts.length ∧ b < g.verts.length ∧ a ≠ b ∧ (sym = true → a < b) := by
          intro a b
          cases sym with
          | true => simp only [if_true, mem_pairs_sorted List.pairwise_lt_range, List.mem_range, forall_const]; omega
          | false => simp only [Bool.false_eq_true, if_false, mem_permPairs List.nodup_range, List.mem_range]; tauto
        simp only [Set.mem_ofPred_eq, Prod.exists, List.mem_filter, hq, mem_pairs_sorted List.pairwise_lt_range, List.mem_range, decide_eq_true_eq]
        constructor
        · rintro ⟨i, j, ⟨hi, hj, hl⟩, a, b, ⟨⟨ha, hb, hn, hs⟩, hne⟩, rfl⟩; exact ⟨i, j, a, b, hl, hj, ha, hb, hn, hs, hne, rfl⟩
        · rintro ⟨i, j, a, b, hl, hj, ha, hb, hn, hs, hne, rfl⟩; exact ⟨i, j, ⟨by omega, hj, hl⟩, a, b, ⟨⟨ha, hb, hn, hs⟩, hne⟩, rfl⟩
    · simp only [Set.mem_ofPred_eq, Prod.exists, List.mem_zipIdx_iff_getElem?]
      constructor
      · rintro ⟨t, k, hk, H⟩; exact ⟨k, t, hk, H⟩
      · rintro ⟨k, t, hk, H⟩; exact ⟨t, k, hk, H⟩

/-- One clause forbidding two values. -/
theorem forbid_pair {m : BinaryMapping Nat Nat Str} (hb : m.range.length ≤ 2 ^ m.bits) (i j : Nat) {u v : Nat} (hu : u ∈ m.range) (hv : v ∈ m.range)
    (α : Str → Bool) : ClauseTrue α (m.forbidImage i u ++ m.forbidImage j v) ↔
      ¬ (binVal α (m.name i) m.bits = m.range.idxOf u ∧ binVal α (m.name j) m.bits = m.range.idxOf v) := by
  rw [clauseTrue_append, BinaryMapping.forbidImage_true m hb α _ hu, BinaryMapping.forbidImage_true m hb α _ hv]
  tauto

/-- **C82.** Binary clique formula, for `i = 1..k`: "position `i` is that of a vertex"; for each two indices and each position, "not both are there"; for each two
indices and each two positions in the wrong order, "not there"; for each two indices and each two positions (in order) of vertices that are not connected, "not
there". -/
theorem C82_binary_clique {g : Graph} {nodes : List Nat} (hn : nodes.Nodup) {k bits : Nat} (hb : nodes.length ≤ 2 ^ bits) {F : CNF Str}
    (h : binaryClique g nodes k bits = pure F) :
    Says F.vars F.clauses
      ({φ | ∃ i ∈ oneTo k, φ = fun α => binVal α (fmt2 "Y".toList i) bits < nodes.length} ∪
       {φ | ∃ a < nodes.length, ∃ i ∈ oneTo k, ∃ j ∈ oneTo k, i < j ∧
          φ = fun α => ¬ (binVal α (fmt2 "Y".toList i) bits = a ∧ binVal α (fmt2 "Y".toList j) bits = a)} ∪
       {φ | ∃ i ∈ oneTo k, ∃ j ∈ oneTo k, i < j ∧ ∃ a b, a < b ∧ b < nodes.length ∧
          φ = fun α => ¬ (binVal α (fmt2 "Y".toList i) bits = b ∧ binVal α (fmt2 "Y".toList j) bits = a)} ∪
       {φ | ∃ i ∈ oneTo k, ∃ j ∈ oneTo k, i < j ∧ ∃ a b, a < b ∧ b < nodes.length ∧ g.hasEdge (nodes.getD a 0) (nodes.getD b 0) = false ∧
          φ = fun α => ¬ (binVal α (fmt2 "Y".toList i) bits = a ∧ binVal α (fmt2 "Y".toList j) bits = b)}) := by
  unfold binaryClique at h
  split at h
  · cases h
  dsimp only at h
  let m : BinaryMapping Nat Nat Str := ⟨oneTo k, nodes, bits, fmt2 "Y".toList, true, true⟩
  have hm : m.range.length ≤ 2 ^ m.bits := hb
  have e : ∀ x < nodes.length, nodes.idxOf (nodes.getD x 0) = x := fun x hx => by
    rw [List.getD_eq_getElem?_getD, List.getElem?_eq_getElem hx]; exact hn.idxOf_getElem x hx
  have hpair : ∀ u v, (u, v) ∈ pairs nodes ↔ u ∈ nodes ∧ v ∈ nodes ∧ nodes.idxOf u < nodes.idxOf v := fun u v => mem_pairs.trans (sublist_idx hn)
  have hpos : ∀ {u}, u ∈ nodes → nodes.idxOf u < nodes.length := fun h => List.idxOf_lt_length_of_mem h
  refine SaysLits.says (ofPartsStrict_coh h) (says_append ?_ ?_)
  · unfold BinaryMapping.clauses
    simp only [if_true]
    refine says_append (says_append ?_ ?_) ?_
    · refine says_each fun i _ α => ?_
      rw [allTrue_map]
      constructor
      · intro h
        by_contra hc
        have hlt : binVal α (fmt2 "Y".toList i) bits < (bitStrings bits).length := by rw [length_bitStrings]; exact BinaryMapping.binVal_lt _ _ _
        have hm : (bitStrings bits)[binVal α (fmt2 "Y".toList i) bits] ∈ (bitStrings bits).drop nodes.length := by
          rw [List.mem_iff_getElem]
          refine ⟨binVal α (fmt2 "Y".toList i) bits - nodes.length, by rw [List.length_drop]; omega, ?_⟩
          rw [List.getElem_drop]; congr 1; omega
        have := (BinaryMapping.forbid_true m α i _ (mem_bitStrings.1 (List.mem_of_mem_drop hm))).1 (h _ hm)
        rw [ofBits_getElem] at this
        exact this rfl
      · intro h bs hbs
        refine (BinaryMapping.forbid_true m α i _ (mem_bitStrings.1 (List.mem_of_mem_drop hbs))).2 ?_
        obtain ⟨k, hk, rfl⟩ := List.mem_iff_getElem.1 hbs
        rw [List.getElem_drop, ofBits_getElem]
        show binVal α (fmt2 "Y".toList i) bits ≠ _
        omega
    · refine SaysLits.congr (says_flatMap (Φ := fun u => {φ | ∃ p ∈ pairs (oneTo k), φ = fun α =>
        ¬ (binVal α (fmt2 "Y".toList p.1) bits = nodes.idxOf u ∧ binVal α (fmt2 "Y".toList p.2) bits = nodes.idxOf u)})
        fun u hu => says_map fun p _ α => forbid_pair (m := m) hm _ _ hu hu α) fun φ => ?_
      simp only [Set.mem_ofPred_eq, Prod.exists, oneTo_pairs]
      constructor
      · rintro ⟨u, hu, i, j, ⟨hi, hj, hl⟩, rfl⟩; exact ⟨_, hpos hu, i, hi, j, hj, hl, rfl⟩
      · rintro ⟨a, ha, i, hi, j, hj, hl, rfl⟩; exact ⟨nodes.getD a 0, getD_mem ha, i, j, ⟨hi, hj, hl⟩, by rw [e a ha]⟩
    · refine SaysLits.congr (says_flatMap (Φ := fun p : Nat × Nat => {φ | ∃ q ∈ pairs nodes, φ = fun α =>
        ¬ (binVal α (fmt2 "Y".toList p.1) bits = nodes.idxOf q.2 ∧ binVal α (fmt2 "Y".toList p.2) bits = nodes.idxOf q.1)})
        fun p _ => says_map fun q hq α => forbid_pair (m := m) hm _ _ ((hpair q.1 q.2).1 hq).2.1 ((hpair q.1 q.2).1 hq).1 α) fun φ => ?_
      simp only [Set.mem_ofPred_eq, Prod.exists, oneTo_pairs, hpair]
      constructor
      · rintro ⟨i, j, ⟨hi, hj, hl⟩, u, v, ⟨hu, hv, hl'⟩, rfl⟩; exact ⟨i, hi, j, hj, hl, _, _, hl', hpos hv, rfl⟩
      · rintro ⟨i, hi, j, hj, hl, a, b, hl', hb', rfl⟩
        exact ⟨i, j, ⟨hi, hj, hl⟩, nodes.getD a 0, nodes.getD b 0, ⟨getD_mem (by omega), getD_mem hb', by rw [e a (by omega), e b hb']; exact hl'⟩,
          by rw [e a (by omega), e b hb']⟩
  · refine SaysLits.congr (says_flatMap (Φ := fun p : Nat × Nat => {φ | ∃ q ∈ (pairs nodes).filter fun q => !g.hasEdge q.1 q.2, φ = fun α =>
      ¬ (binVal α (fmt2 "Y".toList p.1) bits = nodes.idxOf q.1 ∧ binVal α (fmt2 "Y".toList p.2) bits = nodes.idxOf q.2)})
      fun p _ => says_map fun q hq α => forbid_pair (m := m) hm _ _ ((hpair q.1 q.2).1 (List.mem_filter.1 hq).1).1
        ((hpair q.1 q.2).1 (List.mem_filter.1 hq).1).2.1 α) fun φ => ?_
    simp only [Set.mem_ofPred_eq, Prod.exists, oneTo_pairs, List.mem_filter, hpair, Bool.not_eq_true']
    constructor
    · rintro ⟨i, j, ⟨hi, hj, hl⟩, u, v, ⟨⟨hu, hv, hl'⟩, hne⟩, rfl⟩
      exact ⟨i, hi, j, hj, hl, _, _, hl', hpos hv, by rw [getD_idxOf hu, getD_idxOf hv]; exact hne, rfl⟩
    · rintro ⟨i, hi, j, hj, hl, a, b, hl', hb', hne, rfl⟩
      exact ⟨i, j, ⟨hi, hj, hl⟩, nodes.getD a 0, nodes.getD b 0, ⟨⟨getD_mem (by omega), getD_mem hb', by rw [e a (by omega), e b hb']; exact hl'⟩, hne⟩,
        by rw [e a (by omega), e b hb']⟩

/-! ### `kthlist2pebbling` -/

/-- **C80.** Without a transformation `kthlist2pebbling` prints, for a text that lists the predecessors of `n` vertices without a cycle, the clauses of the pebbling
rules: for each vertex "with all listed predecessors it is pebbled", for each vertex that is nobody's predecessor "it is not pebbled". -/
theorem C80_kthlist2pebbling_clauses (dflt : Str) (verbose : Bool) {text : Str} {n : Nat} {adj : List (Int × List Int)} (h : KthText text n adj)
    (hc : NoCycle (Listed adj)) : ∃ out cs, kthlist2pebbling dflt verbose (.stdin text) .text (some .none) = pure (some out) ∧ Prints out n cs ∧
      Says (intsTo n) cs ({φ | ∃ v ∈ intsTo n, φ = fun α => (∀ p, Listed adj p v → α p = true) → α v = true} ∪
        {φ | ∃ v ∈ intsTo n, (∀ w, ¬ Listed adj v w) ∧ φ = fun α => α v = false}) := by
  obtain ⟨G, e, hd, hv, hw, hE⟩ := (C71_kth_dag h).1 hc
  have hdw : (⟨G.nodes, G.edges⟩ : Digraph Int).Wf := ⟨hw.nodup, hw.ends⟩
  have hE : ∀ a b, (a, b) ∈ G.edges ↔ Listed adj a b := by
    intro a b
    rw [← hE, hasEdge_iff, hd]
    simp
  have hac : (⟨G.nodes, G.edges⟩ : Digraph Int).Acyclic := by
    intro v hcy
    exact hc v (Relation.TransGen.mono (fun a b hab => (hE a b).1 hab) v v hcy)
  obtain ⟨F, hF, hFv, _⟩ := (C64_pebbling _ hdw).2 hac
  have hs := C82_pebbling hdw hF
  have hp : Cnfgen.Proper F.vars F.clauses := by
    unfold pebbling at hF
    split at hF
    · exact (ofParts_coh hF).proper
    · cases hF
  have hFv : F.vars = intsTo n := hFv.trans hv
  obtain ⟨t, ht, hP⟩ := doc_prints verbose none (⟨Trans.none.title ++ ("Pebbling formula of: ".toList ++ G.name ++ "\n\n".toList ++ dflt), .inl F⟩ : Doc Int) hp
  refine ⟨t ++ ['\n'], F.clauses, ?_, ?_, ?_⟩
  rotate_left
  · have : anyVars (Sum.inl F : CNF Int ⊕ CNF Str) = n := by
      show F.vars.length = n
      rw [hFv, intsTo, List.length_map, length_oneTo]
    rw [this] at hP
    exact hP
  · rw [hFv] at hs
    have hsets : ({φ | ∃ v ∈ intsTo n, φ = fun α => (∀ p, Listed adj p v → α p = true) → α v = true} ∪
        {φ | ∃ v ∈ intsTo n, (∀ w, ¬ Listed adj v w) ∧ φ = fun α => α v = false} : Set ((Int → Bool) → Prop)) =
        {φ | ∃ v ∈ G.nodes, φ = fun α => (∀ p, (p, v) ∈ G.edges → α p = true) → α v = true} ∪
        {φ | ∃ v ∈ G.nodes, (∀ w, (v, w) ∉ G.edges) ∧ φ = fun α => α v = false} := by
      simp only [hE, hv]
    rw [hsets]
    exact hs
  · unfold kthlist2pebbling
    simp only [Input.open]
    rw [e, M.pure_bind, hF, M.pure_bind]
    show ((do let t ← _; Sink.text.print t) : M (Option Str)) = _
    rw [ht, M.pure_bind]
    rfl

/-! ### Concrete cases -/

/-- Beside C82: in the pebbling formula of `1 → 2 ← 3`, which has no model, the rule of vertex 2 is there by itself. -/
example : ∃ F, pebbling (⟨[1, 2, 3], [(1, 2), (3, 2)]⟩ : Digraph Nat) = pure F ∧ ¬ Spec.Satisfiable F.clauses ∧
    ∃ ds, (∀ c ∈ ds, c ∈ F.clauses) ∧ ∀ α, Holds F.vars ds α ↔ (α 1 = true → α 3 = true → α 2 = true) := by
  have hg : (⟨[1, 2, 3], [(1, 2), (3, 2)]⟩ : Digraph Nat).Wf := ⟨by decide, by decide⟩
  obtain ⟨F, h, _, hs⟩ := (C64_pebbling (⟨[1, 2, 3], [(1, 2), (3, 2)]⟩ : Digraph Nat) hg).2
    (Digraph.acyclic_of_rank (fun v => if v = 2 then 1 else 0) (by decide))
  refine ⟨F, h, fun hs' => by simpa using hs.1 hs', ?_⟩
  obtain ⟨ds, h1, h2⟩ := (C82_pebbling hg h).each _ (.inl ⟨2, by decide, rfl⟩)
  refine ⟨ds, h1, fun α => (h2 α).trans ?_⟩
  constructor
  · intro H h1 h3
    refine H fun p hp => ?_
    have : p = 1 ∨ p = 3 := by simpa using hp
    rcases this with rfl | rfl
    · exact h1
    · exact h3
  · intro H h
    exact H (h 1 (by decide)) (h 3 (by decide))

/-- Beside C82: three pigeons and two holes, no model; "no two pigeons in the second hole" is there by itself. -/
example : ∃ F, pigeonhole 3 2 false false = pure F ∧ ¬ Spec.Satisfiable F.clauses ∧
    ∃ ds, (∀ c ∈ ds, c ∈ F.clauses) ∧ ∀ α, Holds F.vars ds α ↔ ∀ i ∈ oneTo 3, ∀ i' ∈ oneTo 3,
      α (fmt2 "p".toList i 2) = true → α (fmt2 "p".toList i' 2) = true → i = i' := by
  obtain ⟨F, h, hs⟩ := C50_pigeonhole 3 2 false false
  refine ⟨F, h, fun hs' => ?_, (C82_pigeonhole h).each _ (.inl (.inr ⟨2, by decide, rfl⟩))⟩
  have := hs.1 hs'
  revert this
  decide

end NDP.Cnfgen
