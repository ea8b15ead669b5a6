import Verif.Cnfgen.PigeonProps
import Verif.Cnfgen.Pebbling
/-
  C65, C66: `families/subgraph.py`.
-/
namespace NDP.Cnfgen
open NDP

/-! ### Model -/

/-- `families/subgraph.py` 92 (`var_name`). -/
def subVar (i j : Nat) : Str := fmt2 ['S'] i j

/-- `families/subgraph.py` 62-69: one selector for two templates, one each for three and more. -/
def selectors (n : Nat) : List Str :=
  if n ≤ 1 then [] else if n = 2 then [['c']] else (List.range n).map fun i => fmt1 ['c'] i

/-- `families/subgraph.py` 113-123 (`activation_prefixes[i]`). -/
def activation (n i : Nat) : List (Lit Str) :=
  if n = 1 then [] else if n = 2 then (if i = 0 then [(true, ['c'])] else [(false, ['c'])]) else [(true, fmt1 ['c'] i)]

/-- Whether the vertices at positions `i` and `j` are joined: `G.has_edge(V[i],V[j])` with `V = enumerate_vertices(G)`. -/
def Graph.posEdge (g : Graph) (i j : Nat) : Bool := g.hasEdge (g.verts.getD i 0) (g.verts.getD j 0)

/-- `families/subgraph.py` 94-102: the map from positions in the templates to positions in the graph. -/
def subMapping (k N : Nat) (symmetric : Bool) : UnaryMapping Nat Nat Str :=
  { UnaryMapping.full (List.range k) (List.range N) subVar with functional := true, injective := true, nondecreasing := symmetric }

/-- `families/subgraph.py` 129-156: the clauses of template number `i` (of `n`). -/
def templateClauses (g : Graph) (symmetric : Bool) (n : Nat) (t : Graph) (i : Nat) : List (List (Lit Str)) :=
  (pairs (List.range t.verts.length)).flatMap fun p =>
    ((if symmetric then pairs (List.range g.verts.length) else permPairs (List.range g.verts.length)).filter fun q =>
      decide (t.posEdge p.1 p.2 ≠ g.posEdge q.1 q.2)).map fun q =>
        activation n i ++ [(false, subVar p.1 q.1), (false, subVar p.2 q.2)]

/-- `max([s.order() for s in templates])`. -/
def maxOrder (ts : List Graph) : Nat := (ts.map fun t => t.verts.length).foldr max 0

/-- `families/subgraph.py` 25-158 (`SubgraphFormula`). -/
def subgraph (g : Graph) (ts : List Graph) (symmetric : Bool) : M (CNF Str) :=
  if ts.length = 0 then pure {} else do
    let sel := selectors ts.length
    let F ← (({} : CNF Str).addVariables sel).addAll true (if sel.length > 1 then equalTo sel 1 else [])
    let m := subMapping (maxOrder ts) g.verts.length symmetric
    let F ← (F.addVariables m.allVars).addAll true m.clauses
    F.addAll true (ts.zipIdx.flatMap fun ti => templateClauses g symmetric ts.length ti.1 ti.2)

/-- `networkx.empty_graph(n)`. -/
def Graph.empty (n : Nat) : Graph := ⟨List.range n, []⟩

/-- `families/subgraph.py` 162-181 (`CliqueFormula`). -/
def cliqueFormula (g : Graph) (k : Nat) : M (CNF Str) := subgraph g [Graph.complete k] true

/-- `families/subgraph.py` 226-248 (`RamseyWitnessFormula`). -/
def ramseyWitness (g : Graph) (k s : Nat) : M (CNF Str) := subgraph g [Graph.complete k, Graph.empty s] true

/-! ### The formula is built -/

theorem UnaryMapping.clauses_nodup {D R V : Type} [DecidableEq R] {m : UnaryMapping D R V} (hd : m.domain.Nodup)
    (hi : ∀ d, (m.images d).Nodup) (hc : ∀ r, (m.counterimages r).Nodup)
    (hn : ∀ {d d' r r'}, m.name d r = m.name d' r' → d = d' ∧ r = r') : ∀ c ∈ m.clauses, (c.map Prod.snd).Nodup := by
  have h1 : ∀ d k g, ∀ c ∈ inequality ((m.images d).map (m.name d)) k g, (c.map Prod.snd).Nodup := fun d k g c hc =>
    map_nodup_sub (fun _ _ e => (hn e).2) (hi d) (mem_inequality hc)
  have h2 : ∀ r k g, ∀ c ∈ inequality ((m.counterimages r).map fun d => m.name d r) k g, (c.map Prod.snd).Nodup := fun r k g c h =>
    map_nodup_sub (fun _ _ e => (hn e).1) (hc r) (mem_inequality h)
  intro c hc
  unfold UnaryMapping.clauses at hc
  simp only [List.mem_append] at hc
  rcases hc with (((hc | hc) | hc) | hc) | hc
  · split at hc
    · obtain ⟨d, hd, hc⟩ := List.mem_flatMap.1 hc; exact h1 d _ _ c hc
    · simp at hc
  · split at hc
    · obtain ⟨d, hd, hc⟩ := List.mem_flatMap.1 hc; exact h2 d _ _ c hc
    · simp at hc
  · split at hc
    · obtain ⟨d, hd, hc⟩ := List.mem_flatMap.1 hc; exact h2 d _ _ c hc
    · simp at hc
  · split at hc
    · obtain ⟨d, hd, hc⟩ := List.mem_flatMap.1 hc; exact h1 d _ _ c hc
    · simp at hc
  · split at hc
    · obtain ⟨⟨a, b⟩, hab, hc⟩ := List.mem_flatMap.1 hc
      obtain ⟨i, hi, hc⟩ := List.mem_flatMap.1 hc
      obtain ⟨j, hj, rfl⟩ := List.mem_map.1 hc
      refine nodup2 fun e => ?_
      have := (hd.sublist (mem_pairs.1 hab))
      simp at this
      exact this (hn e).1
    · simp at hc

theorem subVar_inj {i j i' j' : Nat} (h : subVar i j = subVar i' j') : i = i' ∧ j = j' := fmt2_inj h

theorem subVar_ne_sel {i j : Nat} {n : Nat} : subVar i j ∉ selectors n := by
  unfold selectors subVar fmt2
  split
  · simp
  · split
    · simp
    · simp [fmt1]

theorem selectors_nodup (n : Nat) : (selectors n).Nodup := by
  unfold selectors
  split
  · simp
  · split
    · simp
    · exact List.Nodup.map (fun a b e => fmt1_inj e) List.nodup_range

theorem activation_known {n i : Nat} (hi : i < n) : ∀ l ∈ activation n i, l.2 ∈ selectors n := by
  intro l hl
  unfold activation at hl
  unfold selectors
  split at hl
  · simp at hl
  · rw [if_neg (by omega)]
    split at hl
    · rw [if_pos (by assumption)]
      split at hl <;> · rw [List.mem_singleton.1 hl]; simp
    · rw [if_neg (by assumption), List.mem_singleton.1 hl]
      exact List.mem_map.2 ⟨i, List.mem_range.2 hi, rfl⟩

theorem activation_nodup (n i : Nat) : ((activation n i).map Prod.snd).Nodup := by
  unfold activation
  split
  · simp
  · split
    · split <;> simp
    · simp

theorem le_maxOrder {ts : List Graph} {t : Graph} (h : t ∈ ts) : t.verts.length ≤ maxOrder ts := by
  unfold maxOrder
  induction ts with
  | nil => simp at h
  | cons a ts ih =>
    rw [List.map_cons, List.foldr_cons]
    rcases List.mem_cons.1 h with rfl | h
    · exact le_max_left _ _
    · exact (ih h).trans (le_max_right _ _)

theorem range_sorted (n : Nat) : (List.range n).Pairwise (· < ·) := List.pairwise_lt_range

theorem mem_maps {N : Nat} {sym : Bool} {a b : Nat} :
    (a, b) ∈ (if sym then pairs (List.range N) else permPairs (List.range N)) ↔ a < N ∧ b < N ∧ a ≠ b ∧ (sym = true → a < b) := by
  cases sym
  · simp only [Bool.false_eq_true, if_false, false_imp_iff, and_true]
    rw [mem_permPairs List.nodup_range, List.mem_range, List.mem_range]
  · simp only [if_true, true_imp_iff]
    rw [mem_pairs_sorted (range_sorted N), List.mem_range, List.mem_range]
    omega

theorem mem_templateClauses {g : Graph} {sym : Bool} {n : Nat} {t : Graph} {i : Nat} {c : List (Lit Str)} :
    c ∈ templateClauses g sym n t i ↔ ∃ i1 i2 j1 j2, i1 < i2 ∧ i2 < t.verts.length ∧ j1 < g.verts.length ∧ j2 < g.verts.length ∧ j1 ≠ j2 ∧
      (sym = true → j1 < j2) ∧ t.posEdge i1 i2 ≠ g.posEdge j1 j2 ∧ c = activation n i ++ [(false, subVar i1 j1), (false, subVar i2 j2)] := by
  unfold templateClauses
  simp only [List.mem_flatMap, List.mem_map, List.mem_filter, Prod.exists, mem_maps, mem_pairs_sorted (range_sorted _), List.mem_range,
    decide_eq_true_eq]
  constructor
  · rintro ⟨i1, i2, ⟨h1, h2, h3⟩, j1, j2, ⟨⟨h4, h5, h6, h7⟩, h8⟩, rfl⟩
    exact ⟨i1, i2, j1, j2, h3, h2, h4, h5, h6, h7, h8, rfl⟩
  · rintro ⟨i1, i2, j1, j2, h3, h2, h4, h5, h6, h7, h8, rfl⟩
    exact ⟨i1, i2, ⟨by omega, h2, h3⟩, j1, j2, ⟨⟨h4, h5, h6, h7⟩, h8⟩, rfl⟩

theorem zipIdx_mem {ts : List Graph} {t : Graph} {i : Nat} (h : (t, i) ∈ ts.zipIdx) : i < ts.length ∧ t ∈ ts := by
  have := List.mem_zipIdx_iff_getElem?.1 h
  obtain ⟨h1, h2⟩ := List.getElem?_eq_some_iff.1 this
  exact ⟨h1, by have h3 := List.getElem_mem h1; rw [show ts[i] = t from h2] at h3; exact h3⟩

/-- The clauses of the formula, in order. -/
def subClauses (g : Graph) (ts : List Graph) (sym : Bool) : List (List (Lit Str)) :=
  (if (selectors ts.length).length > 1 then equalTo (selectors ts.length) 1 else []) ++
    (subMapping (maxOrder ts) g.verts.length sym).clauses ++
    ts.zipIdx.flatMap fun ti => templateClauses g sym ts.length ti.1 ti.2

theorem subgraph_ok (g : Graph) (ts : List Graph) (sym : Bool) (ht : ts ≠ []) :
    ∃ F, subgraph g ts sym = pure F ∧ F.Coh (subClauses g ts sym) := by
  unfold subgraph
  rw [if_neg (by simpa using ht)]
  dsimp only
  obtain ⟨F1, e1, c1, v1⟩ := CNF.addAll_ok (strict := true)
    (ds := if (selectors ts.length).length > 1 then equalTo (selectors ts.length) 1 else []) (CNF.coh_empty.addVariables (vs := selectors ts.length))
    (by
      intro c hc
      split at hc
      · exact (selectors_nodup _).sublist (mem_equalTo hc)
      · simp at hc)
    (by
      intro _ c hc l hl
      split at hc
      · exact CNF.mem_addVariables.2 (.inr ((mem_equalTo hc).subset (List.mem_map_of_mem hl)))
      · simp at hc)
  obtain ⟨F2, e2, c2, v2⟩ := CNF.addAll_ok (strict := true) (ds := (subMapping (maxOrder ts) g.verts.length sym).clauses)
    (c1.addVariables (vs := (subMapping (maxOrder ts) g.verts.length sym).allVars))
    (UnaryMapping.clauses_nodup List.nodup_range (fun _ => List.nodup_range) (fun _ => List.nodup_range) (fun e => subVar_inj e))
    (fun _ c hc l hl => CNF.mem_addVariables.2 (.inr (UnaryMapping.clauses_known (m := subMapping (maxOrder ts) g.verts.length sym)
      (fun _ hr _ hd => ⟨hd, hr⟩) c hc l hl)))
  have k2 : ∀ v, v ∈ selectors ts.length ∨ v ∈ (subMapping (maxOrder ts) g.verts.length sym).allVars → v ∈ F2.vars := by
    intro v hv
    refine (v2 v).2 (.inl (CNF.mem_addVariables.2 ?_))
    rcases hv with hv | hv
    · exact .inl ((v1 v).2 (.inl (CNF.mem_addVariables.2 (.inr hv))))
    · exact .inr hv
  obtain ⟨F3, e3, c3, v3⟩ := CNF.addAll_ok (strict := true) (ds := ts.zipIdx.flatMap fun ti => templateClauses g sym ts.length ti.1 ti.2) c2
    (by
      intro c hc
      obtain ⟨⟨t, i⟩, hti, hc⟩ := List.mem_flatMap.1 hc
      obtain ⟨i1, i2, j1, j2, h1, h2, h3, h4, h5, h6, h7, rfl⟩ := mem_templateClauses.1 hc
      rw [List.map_append, List.nodup_append]
      refine ⟨activation_nodup _ _, nodup2 fun e => ?_, ?_⟩
      · have := (subVar_inj e).1; omega
      · rintro a ha b hb rfl
        obtain ⟨l, hl, rfl⟩ := List.mem_map.1 ha
        have := activation_known (zipIdx_mem hti).1 l hl
        simp only [List.map_cons, List.map_nil, List.mem_cons, List.not_mem_nil, or_false] at hb
        rcases hb with hb | hb <;> rw [hb] at this <;> exact subVar_ne_sel this)
    (by
      intro _ c hc l hl
      obtain ⟨⟨t, i⟩, hti, hc⟩ := List.mem_flatMap.1 hc
      obtain ⟨i1, i2, j1, j2, h1, h2, h3, h4, h5, h6, h7, rfl⟩ := mem_templateClauses.1 hc
      have hk : ∀ i < t.verts.length, ∀ j < g.verts.length, subVar i j ∈ F2.vars := by
        intro i hi j hj
        refine k2 _ (.inr (List.mem_flatMap.2 ⟨i, List.mem_range.2 ?_, List.mem_map.2 ⟨j, List.mem_range.2 hj, rfl⟩⟩))
        exact lt_of_lt_of_le hi (le_maxOrder (zipIdx_mem hti).2)
      rcases List.mem_append.1 hl with hl | hl
      · exact k2 _ (.inl (activation_known (zipIdx_mem hti).1 l hl))
      · simp only [List.mem_cons, List.not_mem_nil, or_false] at hl
        rcases hl with rfl | rfl
        · exact hk i1 (h1.trans h2) j1 h3
        · exact hk i2 h2 j2 h4)
  refine ⟨F3, ?_, ?_⟩
  · rw [e1, M.pure_bind, e2, M.pure_bind, e3]
  · unfold subClauses; simpa using c3

/-! ### What it says -/

/-- A placement of `k` positions among `N`: different places, in increasing order if `sym`. -/
def Placement (k N : Nat) (sym : Bool) (f : Nat → Nat) : Prop :=
  (∀ i < k, f i < N) ∧ ∀ i j, i < j → j < k → f i ≠ f j ∧ (sym = true → f i < f j)

/-- The placement puts edges of the template on edges, and non-edges on non-edges. -/
def Fits (g t : Graph) (f : Nat → Nat) : Prop :=
  ∀ i j, i < j → j < t.verts.length → (t.posEdge i j = true ↔ g.posEdge (f i) (f j) = true)

/-- Which of `n` templates the formula takes into account: the one, one of two, all but one of three or more. -/
def Considered (n : Nat) (act : Nat → Prop) : Prop :=
  (n = 1 → act 0) ∧ (n = 2 → act 0 ∨ act 1) ∧ (3 ≤ n → ∃ i < n, ∀ j < n, j ≠ i → act j)

theorem exists_subVar (S : Nat → Nat → Prop) (c : Prop) (d : Nat → Prop) :
    ∃ α : Str → Bool, (∀ i j, α (subVar i j) = true ↔ S i j) ∧ (α ['c'] = true ↔ c) ∧ ∀ i, α (fmt1 ['c'] i) = true ↔ d i := by
  classical
  obtain ⟨α, h⟩ := exists_assign (f := fun p : (Nat × Nat) ⊕ Option Nat => match p with
      | .inl p => subVar p.1 p.2
      | .inr none => ['c']
      | .inr (some i) => fmt1 ['c'] i) (by
    rintro (⟨i, j⟩ | _ | i) (⟨i', j'⟩ | _ | i') h
    · obtain ⟨rfl, rfl⟩ := subVar_inj h; rfl
    · simp [subVar, fmt2] at h
    · simp [subVar, fmt2, fmt1] at h
    · simp [subVar, fmt2] at h
    · rfl
    · simp [fmt1] at h
    · simp [subVar, fmt2, fmt1] at h
    · simp [fmt1] at h
    · rw [fmt1_inj h]) (fun p => match p with
      | .inl p => decide (S p.1 p.2)
      | .inr none => decide c
      | .inr (some i) => decide (d i))
  exact ⟨α, fun i j => by rw [h (.inl (i, j))]; simp, by rw [h (.inr none)]; simp, fun i => by rw [h (.inr (some i))]; simp⟩

theorem zipIdx_getElem {ts : List Graph} {i : Nat} (hi : i < ts.length) : (ts[i], i) ∈ ts.zipIdx := by
  rw [List.mem_zipIdx_iff_getElem?]; simp [hi]

/-- The formula with templates `ts` is satisfiable exactly when there is a placement of as many positions as the largest template has
vertices, fitting the templates taken into account. -/
theorem subgraph_meaning (g : Graph) (ts : List Graph) (sym : Bool) (ht : ts ≠ []) :
    ∃ F, subgraph g ts sym = pure F ∧ (Spec.Satisfiable F.clauses ↔
      ∃ f act, Placement (maxOrder ts) g.verts.length sym f ∧ Considered ts.length act ∧ ∀ (i : Nat) (hi : i < ts.length), act i → Fits g ts[i] f) := by
  obtain ⟨F, hF, hc⟩ := subgraph_ok g ts sym ht
  refine ⟨F, hF, ?_⟩
  rw [hc.sat]
  unfold subClauses
  have hmap := fun α : Str → Bool => UnaryMapping.C49_unary (subMapping (maxOrder ts) g.verts.length sym)
    (fun _ => List.nodup_range) (fun _ => List.nodup_range) α
  simp only [allTrue_append, hmap, allTrue_flatMap]
  simp only [subMapping, UnaryMapping.full, true_imp_iff, Bool.false_eq_true, false_imp_iff, List.mem_range, and_assoc, true_and]
  constructor
  · rintro ⟨α, hsel, htot, hinj, hfun, hmono, htemp⟩
    choose! f hf using htot
    have hP : Placement (maxOrder ts) g.verts.length sym f := by
      refine ⟨fun i hi => (hf i hi).1, fun i j hij hj => ?_⟩
      have hne : f i ≠ f j := fun e => by
        have := hinj (f i) (hf i (by omega)).1 i (by omega) j hj (hf i (by omega)).2 (by rw [e]; exact (hf j hj).2)
        omega
      refine ⟨hne, fun hs => ?_⟩
      have := hmono hs i j ((sorted_pair (range_sorted _)).2 ⟨List.mem_range.2 (by omega), List.mem_range.2 hj, hij⟩) (f i)
        (hf i (by omega)).1 (f j) (hf j hj).1 (hf i (by omega)).2 (hf j hj).2
      have e1 : ∀ x < g.verts.length, (List.range g.verts.length).idxOf x = x := fun x hx => by
        have := List.nodup_range.idxOf_getElem x (by simpa using hx) (xs := List.range g.verts.length)
        simpa using this
      rw [e1 _ (hf i (by omega)).1, e1 _ (hf j hj).1] at this
      omega
    refine ⟨f, fun i => ¬ ClauseTrue α (activation ts.length i), hP, ⟨?_, ?_, ?_⟩, fun i hi hact i1 i2 h1 h2 => ?_⟩
    · intro h; unfold activation; rw [if_pos h]; exact clauseTrue_nil α
    · intro h
      show ¬ ClauseTrue α (activation ts.length 0) ∨ ¬ ClauseTrue α (activation ts.length 1)
      unfold activation
      rw [if_neg (by omega), if_pos h, if_pos rfl, if_neg (by omega), if_pos h, if_neg (by omega)]
      simp only [clauseTrue_cons, clauseTrue_nil, or_false]
      cases α ['c'] <;> simp
    · intro h
      have hs : selectors ts.length = (List.range ts.length).map fun i => fmt1 ['c'] i := by
        unfold selectors; rw [if_neg (by omega), if_neg (by omega)]
      rw [hs, if_pos (by simp; omega), allTrue_exactlyOne α _ _ List.nodup_range] at hsel
      obtain ⟨⟨i, hi, hi2⟩, hu⟩ := hsel
      refine ⟨i, List.mem_range.1 hi, fun j hj hne => ?_⟩
      show ¬ ClauseTrue α (activation ts.length j)
      unfold activation
      rw [if_neg (by omega), if_neg (by omega)]
      simp only [clauseTrue_cons, clauseTrue_nil, or_false]
      exact fun hj2 => hne (hu j (List.mem_range.2 hj) i hi hj2 hi2)
    · have hk := le_maxOrder (List.getElem_mem hi)
      rw [← Bool.eq_iff_iff]
      by_contra hne
      have hp := hP.2 i1 i2 h1 (by omega)
      have := htemp (ts[i], i) (zipIdx_getElem hi) _ (mem_templateClauses.2 ⟨i1, i2, f i1, f i2, h1, h2, hP.1 i1 (by omega), hP.1 i2 (by omega),
        hp.1, hp.2, hne, rfl⟩)
      rw [clauseTrue_append] at this
      rcases this with h | h
      · exact hact h
      · simp [clauseTrue_cons, clauseTrue_nil, (hf i1 (by omega)).2, (hf i2 (by omega)).2] at h
  · rintro ⟨f, act, hP, hact, hfit⟩
    -- the selectors: off exactly for templates not considered
    obtain ⟨cv, dv, hoff, hone⟩ : ∃ (c : Prop) (d : Nat → Prop),
        (∀ i < ts.length, ∀ α : Str → Bool, (α ['c'] = true ↔ c) → (∀ i, α (fmt1 ['c'] i) = true ↔ d i) →
          act i ∨ ClauseTrue α (activation ts.length i)) ∧
        (3 ≤ ts.length → ∃ i < ts.length, ∀ j, d j ↔ j = i) := by
      rcases Nat.lt_trichotomy ts.length 2 with h | h | h
      · have h1 : ts.length = 1 := by have := List.length_pos_iff.2 ht; omega
        refine ⟨True, fun _ => True, fun i hi α _ _ => .inl ?_, by omega⟩
        have : i = 0 := by omega
        rw [this]; exact hact.1 h1
      · refine ⟨¬ act 0, fun _ => True, fun i hi α hc _ => ?_, by omega⟩
        by_cases ha : act i
        · exact .inl ha
        · right
          unfold activation
          rw [if_neg (by omega), if_pos h]
          split
          · rename_i hi0
            subst hi0
            simp [clauseTrue_cons, clauseTrue_nil, hc.2 ha]
          · have : i = 1 := by omega
            subst this
            have h0 := (hact.2.1 h).resolve_right ha
            have : ¬ α ['c'] = true := fun e => hc.1 e h0
            simp [clauseTrue_cons, clauseTrue_nil, this]
      · obtain ⟨i, hi, hall⟩ := hact.2.2 (by omega)
        refine ⟨True, fun j => j = i, fun j hj α _ hd => ?_, fun _ => ⟨i, hi, fun j => Iff.rfl⟩⟩
        by_cases he : j = i
        · right
          unfold activation
          rw [if_neg (by omega), if_neg (by omega)]
          simp [clauseTrue_cons, clauseTrue_nil, (hd j).2 he]
        · exact .inl (hall j hj he)
    obtain ⟨α, hS, hc, hd⟩ := exists_subVar (fun i j => j = f i) cv dv
    refine ⟨α, ?_, ?_, ?_, ?_, ?_, ?_⟩
    · by_cases h3 : 3 ≤ ts.length
      · have hs : selectors ts.length = (List.range ts.length).map fun i => fmt1 ['c'] i := by
          unfold selectors; rw [if_neg (by omega), if_neg (by omega)]
        rw [hs, if_pos (by simp; omega), allTrue_exactlyOne α _ _ List.nodup_range]
        obtain ⟨i, hi, hj⟩ := hone h3
        refine ⟨⟨i, List.mem_range.2 hi, (hd i).2 ((hj i).2 rfl)⟩, fun x _ y _ e1 e2 => ?_⟩
        rw [hd, hj] at e1 e2
        rw [e1, e2]
      · rw [if_neg]
        · exact allTrue_nil α
        · unfold selectors
          split
          · simp
          · rw [if_pos (by omega)]; simp
    · exact fun i hi => ⟨f i, hP.1 i hi, (hS _ _).2 rfl⟩
    · intro r _ i hi j hj e1 e2
      rw [hS] at e1 e2
      by_contra hne
      rcases Nat.lt_or_gt_of_ne hne with h | h
      · exact (hP.2 i j h hj).1 (e1.symm.trans e2)
      · exact (hP.2 j i h hi).1 (e2.symm.trans e1)
    · intro i _ r _ r' _ e1 e2
      rw [hS] at e1 e2
      rw [e1, e2]
    · intro hs i j hsub r hr r' hr' e1 e2
      rw [hS] at e1 e2
      have hij := (sorted_pair (range_sorted _)).1 hsub
      rw [List.mem_range] at hij
      have := (hP.2 i j hij.2.2 (List.mem_range.1 hij.2.1)).2 hs
      have e1' : ∀ x < g.verts.length, (List.range g.verts.length).idxOf x = x := fun x hx => by
        have := List.nodup_range.idxOf_getElem x (by simpa using hx) (xs := List.range g.verts.length)
        simpa using this
      rw [e1' r hr, e1' r' hr']
      omega
    · rintro ⟨t, i⟩ hti c hc'
      obtain ⟨i1, i2, j1, j2, h1, h2, h3, h4, h5, h6, h7, rfl⟩ := mem_templateClauses.1 hc'
      have hi := (zipIdx_mem hti).1
      have hget : ts[i] = t := by
        have := List.mem_zipIdx_iff_getElem?.1 hti
        rw [List.getElem?_eq_getElem hi] at this
        exact Option.some.inj this
      rw [clauseTrue_append]
      rcases hoff i hi α hc hd with h | h
      · right
        simp only [clauseTrue_cons, clauseTrue_nil, or_false]
        by_contra hcon
        simp only [not_or, Bool.not_eq_false, hS] at hcon
        have := hfit i hi h i1 i2 h1 (by rw [hget]; exact h2)
        rw [hget, ← hcon.1, ← hcon.2, ← Bool.eq_iff_iff] at this
        exact h7 this
      · exact .inl h

/-! ### Sets of vertices and increasing placements -/

theorem getD_mem {l : List Nat} {i : Nat} (h : i < l.length) : l.getD i 0 ∈ l := by
  rw [List.getD_eq_getElem?_getD, List.getElem?_eq_getElem h]; exact List.getElem_mem h

theorem getD_inj {l : List Nat} (hn : l.Nodup) {i j : Nat} (hi : i < l.length) (hj : j < l.length) (h : l.getD i 0 = l.getD j 0) : i = j := by
  rw [List.getD_eq_getElem?_getD, List.getElem?_eq_getElem hi, List.getD_eq_getElem?_getD, List.getElem?_eq_getElem hj] at h
  exact (hn.getElem_inj_iff).1 h

theorem getD_idxOf {l : List Nat} {x : Nat} (h : x ∈ l) : l.getD (l.idxOf x) 0 = x := by
  rw [List.getD_eq_getElem?_getD, List.getElem?_eq_getElem (List.idxOf_lt_length_of_mem h)]
  simp

/-- `K` consists of vertices that are pairwise connected (`b = true`), or pairwise not connected (`b = false`). -/
def Homogeneous (g : Graph) (b : Bool) (K : Finset Nat) : Prop :=
  (∀ v ∈ K, v ∈ g.verts) ∧ ∀ u ∈ K, ∀ v ∈ K, u ≠ v → g.hasEdge u v = b

/-- A set of vertices can be listed in increasing order. -/
theorem place_of_set {ns : List Nat} (K : Finset Nat) (h1 : ∀ v ∈ K, v ∈ ns) :
    ∃ f, Placement K.card ns.length true f ∧ ∀ i < K.card, ns.getD (f i) 0 ∈ K := by
  have hc : (K.image ns.idxOf).card = K.card := by
    rw [Finset.card_image_of_injOn]
    intro u hu v hv' e
    have e1 := getD_idxOf (h1 u hu)
    have e2 := getD_idxOf (h1 v hv')
    rw [← e1, ← e2, show ns.idxOf u = ns.idxOf v from e]
  let o := (K.image ns.idxOf).orderEmbOfFin hc
  have ho : ∀ i : Fin K.card, ∃ v ∈ K, ns.idxOf v = o i := fun i => by
    have := (K.image ns.idxOf).orderEmbOfFin_mem hc i
    obtain ⟨v, hv', e⟩ := Finset.mem_image.1 this
    exact ⟨v, hv', e⟩
  refine ⟨fun i => if h : i < K.card then o ⟨i, h⟩ else 0, ⟨fun i hi => ?_, fun i j hij hj => ?_⟩, fun i hi => ?_⟩
  · dsimp only
    rw [dif_pos hi]
    obtain ⟨v, hv', e⟩ := ho ⟨i, hi⟩
    rw [← e]
    exact List.idxOf_lt_length_of_mem (h1 v hv')
  · dsimp only
    rw [dif_pos hj, dif_pos (hij.trans hj)]
    have : o ⟨i, hij.trans hj⟩ < o ⟨j, hj⟩ := o.strictMono (Fin.mk_lt_mk.2 hij)
    exact ⟨Nat.ne_of_lt this, fun _ => this⟩
  · dsimp only
    rw [dif_pos hi]
    obtain ⟨u, hu, eu⟩ := ho ⟨i, hi⟩
    rw [← eu, getD_idxOf (h1 u hu)]
    exact hu

/-- An increasing placement of a set of vertices, in any order of the vertices. -/
theorem homog_iff {g : Graph} {ns : List Nat} (hn : ns.Nodup) (hv : ∀ v, v ∈ ns ↔ v ∈ g.verts) (b : Bool) (k : Nat) :
    (∃ f, Placement k ns.length true f ∧ ∀ i j, i < j → j < k → g.hasEdge (ns.getD (f i) 0) (ns.getD (f j) 0) = b) ↔
      ∃ K : Finset Nat, Homogeneous g b K ∧ K.card = k := by
  constructor
  · rintro ⟨f, hP, hb⟩
    have hne : ∀ i < k, ∀ j < k, ns.getD (f i) 0 = ns.getD (f j) 0 → i = j := by
      intro i hi j hj e
      have e2 := getD_inj hn (hP.1 i hi) (hP.1 j hj) e
      by_contra hne
      rcases Nat.lt_or_gt_of_ne hne with h | h
      · exact (hP.2 i j h hj).1 e2
      · exact (hP.2 j i h hi).1 e2.symm
    refine ⟨(Finset.range k).image fun i => ns.getD (f i) 0, ⟨?_, ?_⟩, ?_⟩
    · intro v h
      obtain ⟨i, hi, rfl⟩ := Finset.mem_image.1 h
      exact (hv _).1 (getD_mem (hP.1 i (Finset.mem_range.1 hi)))
    · intro u hu v hv' huv
      obtain ⟨i, hi, rfl⟩ := Finset.mem_image.1 hu
      obtain ⟨j, hj, rfl⟩ := Finset.mem_image.1 hv'
      rw [Finset.mem_range] at hi hj
      rcases Nat.lt_trichotomy i j with h | h | h
      · exact hb i j h hj
      · subst h; exact absurd rfl huv
      · rw [Graph.hasEdge_comm]; exact hb j i h hi
    · rw [Finset.card_image_of_injOn, Finset.card_range]
      intro i hi j hj e
      exact hne i (by simpa using hi) j (by simpa using hj) e
  · rintro ⟨K, ⟨h1, h2⟩, rfl⟩
    obtain ⟨f, hP, hf⟩ := place_of_set (ns := ns) K (fun v h => (hv v).2 (h1 v h))
    refine ⟨f, hP, fun i j hij hj => h2 _ (hf i (hij.trans hj)) _ (hf j hj) fun e => ?_⟩
    exact (hP.2 i j hij hj).1 (getD_inj hn (hP.1 i (hij.trans hj)) (hP.1 j hj) e)

/-! ### C65: one template -/

theorem placement_injOn {k N : Nat} {sym : Bool} {f : Nat → Nat} (h : Placement k N sym f) {i j : Nat} (hi : i < k) (hj : j < k)
    (e : f i = f j) : i = j := by
  by_contra hne
  rcases Nat.lt_or_gt_of_ne hne with h' | h'
  · exact (h.2 i j h' hj).1 e
  · exact (h.2 j i h' hi).1 e.symm

/-- `φ` is an induced copy of `t` in `g`: different vertices on different vertices, edges on edges, non-edges on non-edges. -/
structure InducedCopy (g t : Graph) (φ : Nat → Nat) : Prop where
  verts : ∀ u ∈ t.verts, φ u ∈ g.verts
  inj : ∀ u ∈ t.verts, ∀ v ∈ t.verts, φ u = φ v → u = v
  edges : ∀ u ∈ t.verts, ∀ v ∈ t.verts, (t.hasEdge u v = true ↔ g.hasEdge (φ u) (φ v) = true)

theorem Graph.Wf.hasEdge_self {g : Graph} (h : g.Wf) (u : Nat) : g.hasEdge u u = false := by
  cases e : g.hasEdge u u with
  | false => rfl
  | true => exact absurd rfl (h.hasEdge_ne e)

theorem copy_iff {g t : Graph} (hg : g.Wf) (ht : t.Wf) :
    (∃ f, Placement t.verts.length g.verts.length false f ∧ Fits g t f) ↔ ∃ φ, InducedCopy g t φ := by
  constructor
  · rintro ⟨f, hP, hf⟩
    refine ⟨fun u => g.verts.getD (f (t.verts.idxOf u)) 0, fun u hu => getD_mem (hP.1 _ (List.idxOf_lt_length_of_mem hu)),
      fun u hu v hv e => ?_, fun u hu v hv => ?_⟩
    · have e1 := getD_inj hg.verts_nodup (hP.1 _ (List.idxOf_lt_length_of_mem hu)) (hP.1 _ (List.idxOf_lt_length_of_mem hv)) e
      have e2 := placement_injOn hP (List.idxOf_lt_length_of_mem hu) (List.idxOf_lt_length_of_mem hv) e1
      rw [← getD_idxOf hu, ← getD_idxOf hv, e2]
    · rcases Nat.lt_trichotomy (t.verts.idxOf u) (t.verts.idxOf v) with h | h | h
      · have := hf _ _ h (List.idxOf_lt_length_of_mem hv)
        unfold Graph.posEdge at this
        rw [getD_idxOf hu, getD_idxOf hv] at this
        exact this
      · have : u = v := by rw [← getD_idxOf hu, ← getD_idxOf hv, h]
        subst this
        rw [ht.hasEdge_self, hg.hasEdge_self]
      · have := hf _ _ h (List.idxOf_lt_length_of_mem hu)
        unfold Graph.posEdge at this
        rw [getD_idxOf hu, getD_idxOf hv] at this
        rw [t.hasEdge_comm, g.hasEdge_comm]
        exact this
  · rintro ⟨φ, hφ⟩
    refine ⟨fun i => g.verts.idxOf (φ (t.verts.getD i 0)), ⟨fun i hi => List.idxOf_lt_length_of_mem (hφ.verts _ (getD_mem hi)),
      fun i j hij hj => ⟨fun e => ?_, by simp⟩⟩, fun i j hij hj => ?_⟩
    · have hi := getD_mem (hij.trans hj)
      have hj' := getD_mem hj
      have e2 : φ (t.verts.getD i 0) = φ (t.verts.getD j 0) := by
        rw [← getD_idxOf (hφ.verts _ hi), ← getD_idxOf (hφ.verts _ hj')]
        exact congrArg (fun n => g.verts.getD n 0) e
      have := getD_inj ht.verts_nodup (hij.trans hj) hj (hφ.inj _ hi _ hj' e2)
      omega
    · have hi := getD_mem (hij.trans hj)
      have hj' := getD_mem hj
      unfold Graph.posEdge
      dsimp only
      rw [getD_idxOf (hφ.verts _ hi), getD_idxOf (hφ.verts _ hj')]
      exact hφ.edges _ hi _ hj'

/-- **C65.** The subgraph formula for one template is satisfiable exactly when the graph has an induced copy of the template. -/
theorem C65_subgraph (g t : Graph) (hg : g.Wf) (ht : t.Wf) :
    ∃ F, subgraph g [t] false = pure F ∧ (Spec.Satisfiable F.clauses ↔ ∃ φ, InducedCopy g t φ) := by
  obtain ⟨F, hF, h⟩ := subgraph_meaning g [t] false (by simp)
  refine ⟨F, hF, h.trans ?_⟩
  rw [← copy_iff hg ht]
  constructor
  · rintro ⟨f, act, hP, hact, hfit⟩
    exact ⟨f, by simpa [maxOrder] using hP, hfit 0 (by simp) (hact.1 rfl)⟩
  · rintro ⟨f, hP, hfit⟩
    refine ⟨f, fun _ => True, by simpa [maxOrder] using hP, ⟨fun _ => trivial, fun _ => .inl trivial, fun _ => ⟨0, by simp, fun _ _ _ => trivial⟩⟩,
      fun i hi _ => ?_⟩
    have : i = 0 := by simpa using hi
    subst this
    exact hfit

theorem complete_posEdge {k i j : Nat} (hij : i < j) (hj : j < k) : (Graph.complete k).posEdge i j = true := by
  unfold Graph.posEdge Graph.complete
  rw [Graph.hasEdge_iff]
  left
  rw [mem_pairs_sorted (range_sorted k)]
  simp [List.getD_eq_getElem?_getD, List.getElem?_range, hj, hij.trans hj, hij]

theorem empty_posEdge (s i j : Nat) : (Graph.empty s).posEdge i j = false := by
  simp [Graph.posEdge, Graph.empty, Graph.hasEdge]

/-- **C65.** The clique formula is satisfiable exactly when the graph has a set of `k` pairwise connected vertices. -/
theorem C65_clique (g : Graph) (hg : g.Wf) (k : Nat) :
    ∃ F, cliqueFormula g k = pure F ∧
      (Spec.Satisfiable F.clauses ↔ ∃ K : Finset Nat, Homogeneous g true K ∧ K.card = k) := by
  obtain ⟨F, hF, h⟩ := subgraph_meaning g [Graph.complete k] true (by simp)
  refine ⟨F, hF, h.trans ?_⟩
  rw [← homog_iff hg.verts_nodup (fun _ => Iff.rfl)]
  have hl : (Graph.complete k).verts.length = k := by simp [Graph.complete]
  constructor
  · rintro ⟨f, act, hP, hact, hfit⟩
    have hP : Placement k g.verts.length true f := by simpa [maxOrder, hl] using hP
    refine ⟨f, hP, fun i j hij hj => ?_⟩
    exact (hfit 0 (by simp) (hact.1 rfl) i j hij (by simpa [hl] using hj)).1 (complete_posEdge hij hj)
  · rintro ⟨f, hP, hfit⟩
    refine ⟨f, fun _ => True, by simpa [maxOrder, hl] using hP, ⟨fun _ => trivial, fun _ => .inl trivial, fun _ => ⟨0, by simp, fun _ _ _ => trivial⟩⟩,
      fun i hi _ => ?_⟩
    have : i = 0 := by simpa using hi
    subst this
    intro i j hij hj
    have hj : j < k := by simpa [hl] using hj
    exact iff_of_true (complete_posEdge hij hj) (hfit i j hij hj)

/-! ### Binary clique formula -/

/-- `families/subgraph.py` 184-222 (`BinaryCliqueFormula`).  `nodes` is `G.nodes()`, in the order networkx keeps them; `bits` as in
`BinaryMapping`: `ceil(log(N,2))`, and `log(0,2)` is a `ValueError`. -/
def binaryClique (g : Graph) (nodes : List Nat) (k bits : Nat) : M (CNF Str) :=
  if nodes.length = 0 then raise .valueError else
  let m : BinaryMapping Nat Nat Str :=
    { domain := oneTo k, range := nodes, bits := bits, name := fmt2 "Y".toList, injective := true, nondecreasing := true }
  CNF.ofPartsStrict m.allVars (m.clauses ++
    (pairs (oneTo k)).flatMap fun p => ((pairs nodes).filter fun q => !g.hasEdge q.1 q.2).map fun q =>
      m.forbidImage p.1 q.1 ++ m.forbidImage p.2 q.2)

theorem sublist_idx {l : List Nat} (hn : l.Nodup) {u v : Nat} : [u, v].Sublist l ↔ u ∈ l ∧ v ∈ l ∧ l.idxOf u < l.idxOf v := by
  induction l with
  | nil => simp
  | cons x xs ih =>
    rw [List.nodup_cons] at hn
    constructor
    · intro hs
      cases hs with
      | cons _ h =>
        have n1 : x ≠ u := by rintro rfl; exact hn.1 (h.subset (by simp))
        have n2 : x ≠ v := by rintro rfl; exact hn.1 (h.subset (by simp))
        rw [List.idxOf_cons_ne _ n1, List.idxOf_cons_ne _ n2]
        obtain ⟨a, b, c⟩ := (ih hn.2).1 h
        exact ⟨List.mem_cons_of_mem _ a, List.mem_cons_of_mem _ b, by omega⟩
      | cons_cons _ h =>
        have hm := List.singleton_sublist.1 h
        have n1 : u ≠ v := by rintro rfl; exact hn.1 hm
        rw [List.idxOf_cons_self, List.idxOf_cons_ne _ n1]
        exact ⟨by simp, List.mem_cons_of_mem _ hm, by omega⟩
    · rintro ⟨hu, hv, hlt⟩
      by_cases e2 : x = v
      · subst e2; rw [List.idxOf_cons_self] at hlt; omega
      · have hv' : v ∈ xs := by rcases List.mem_cons.1 hv with h | h; exact absurd h.symm e2; exact h
        by_cases e1 : x = u
        · subst e1
          exact List.Sublist.cons_cons _ (List.singleton_sublist.2 hv')
        · rw [List.idxOf_cons_ne _ e1, List.idxOf_cons_ne _ e2] at hlt
          have hu' : u ∈ xs := by rcases List.mem_cons.1 hu with h | h; exact absurd h.symm e1; exact h
          exact ((ih hn.2).2 ⟨hu', hv', by omega⟩).cons _

theorem forbid_nodup {k : Nat} {ns : List Nat} {bits : Nat} {inj nd : Bool} {i : Nat} {bs : List Bool} :
    (((BinaryMapping.mk (oneTo k) ns bits (fmt2 "Y".toList) inj nd).forbidBitstring i bs).map Prod.snd).Nodup := by
  unfold BinaryMapping.forbidBitstring
  rw [List.map_map]
  refine List.Nodup.map_on ?_ List.nodup_range
  intro a ha b hb e
  have ha := List.mem_range.1 ha
  have hb := List.mem_range.1 hb
  have := (fmt2_inj e).2
  dsimp only at ha hb this
  omega

theorem forbid2_nodup {k : Nat} {ns : List Nat} {bits : Nat} {inj nd : Bool} {i i' : Nat} (hne : i ≠ i') {bs bs' : List Bool} :
    (((BinaryMapping.mk (oneTo k) ns bits (fmt2 "Y".toList) inj nd).forbidBitstring i bs ++
      (BinaryMapping.mk (oneTo k) ns bits (fmt2 "Y".toList) inj nd).forbidBitstring i' bs').map Prod.snd).Nodup := by
  rw [List.map_append, List.nodup_append]
  refine ⟨forbid_nodup, forbid_nodup, ?_⟩
  rintro a ha b hb rfl
  unfold BinaryMapping.forbidBitstring at ha hb
  simp only [List.map_map, List.mem_map] at ha hb
  obtain ⟨x, _, e1⟩ := ha
  obtain ⟨y, _, e2⟩ := hb
  exact hne (fmt2_inj (e1.trans e2.symm)).1

theorem pairs_ne {l : List Nat} (hn : l.Nodup) {p : Nat × Nat} (h : p ∈ pairs l) : p.1 ≠ p.2 := by
  have := hn.sublist (mem_pairs.1 (show (p.1, p.2) ∈ pairs l from h))
  simpa using this

theorem binary_clauses_nodup {k : Nat} {ns : List Nat} {bits : Nat} {inj nd : Bool} :
    ∀ c ∈ (BinaryMapping.mk (oneTo k) ns bits (fmt2 "Y".toList) inj nd).clauses, (c.map Prod.snd).Nodup := by
  intro c hc
  unfold BinaryMapping.clauses BinaryMapping.forbidImage at hc
  simp only [List.mem_append] at hc
  rcases hc with (hc | hc) | hc
  · obtain ⟨i, _, hc⟩ := List.mem_flatMap.1 hc
    obtain ⟨bs, _, rfl⟩ := List.mem_map.1 hc
    exact forbid_nodup
  · split at hc
    · obtain ⟨j, _, hc⟩ := List.mem_flatMap.1 hc
      obtain ⟨p, hp, rfl⟩ := List.mem_map.1 hc
      exact forbid2_nodup (pairs_ne (oneTo_nodup k) hp)
    · simp at hc
  · split at hc
    · obtain ⟨p, hp, hc⟩ := List.mem_flatMap.1 hc
      obtain ⟨q, _, rfl⟩ := List.mem_map.1 hc
      exact forbid2_nodup (pairs_ne (oneTo_nodup k) hp)
    · simp at hc

theorem forbid_known {k : Nat} {ns : List Nat} {bits : Nat} {inj nd : Bool} {i : Nat} (hi : i ∈ oneTo k) {bs : List Bool} :
    ∀ l ∈ (BinaryMapping.mk (oneTo k) ns bits (fmt2 "Y".toList) inj nd).forbidBitstring i bs,
      l.2 ∈ (BinaryMapping.mk (oneTo k) ns bits (fmt2 "Y".toList) inj nd).allVars := by
  intro l hl
  obtain ⟨b, hb, rfl⟩ := List.mem_map.1 hl
  have := List.mem_range.1 hb
  exact List.mem_flatMap.2 ⟨i, hi, List.mem_map_of_mem (List.mem_range.2 (by omega))⟩

/-- **C65.** The binary clique formula is satisfiable exactly when the graph has a set of `k` pairwise connected vertices, whatever the order
in which the vertices are numbered. -/
theorem C65_binary_clique (g : Graph) (nodes : List Nat) (hn : nodes.Nodup) (hv : ∀ v, v ∈ nodes ↔ v ∈ g.verts) (k bits : Nat)
    (h0 : 0 < nodes.length) (hb : nodes.length ≤ 2 ^ bits) :
    ∃ F, binaryClique g nodes k bits = pure F ∧
      (Spec.Satisfiable F.clauses ↔ ∃ K : Finset Nat, Homogeneous g true K ∧ K.card = k) := by
  unfold binaryClique
  rw [if_neg (by omega)]
  dsimp only
  obtain ⟨F, hF, hc⟩ := CNF.ofPartsStrict_ok
    (vs := (BinaryMapping.mk (oneTo k) nodes bits (fmt2 "Y".toList) true true).allVars)
    (cs := (BinaryMapping.mk (oneTo k) nodes bits (fmt2 "Y".toList) true true).clauses ++
      (pairs (oneTo k)).flatMap fun p => ((pairs nodes).filter fun q => !g.hasEdge q.1 q.2).map fun q =>
        (BinaryMapping.mk (oneTo k) nodes bits (fmt2 "Y".toList) true true).forbidImage p.1 q.1 ++
        (BinaryMapping.mk (oneTo k) nodes bits (fmt2 "Y".toList) true true).forbidImage p.2 q.2)
    (by
      intro c hc
      rcases List.mem_append.1 hc with hc | hc
      · exact binary_clauses_nodup c hc
      · obtain ⟨p, hp, hc⟩ := List.mem_flatMap.1 hc
        obtain ⟨q, _, rfl⟩ := List.mem_map.1 hc
        exact forbid2_nodup (pairs_ne (oneTo_nodup k) hp))
    (by
      intro c hc
      rcases List.mem_append.1 hc with hc | hc
      · exact BinaryMapping.clauses_known c hc
      · obtain ⟨p, hp, hc⟩ := List.mem_flatMap.1 hc
        obtain ⟨q, _, rfl⟩ := List.mem_map.1 hc
        have hs := oneTo_pairs.1 (show (p.1, p.2) ∈ pairs (oneTo k) from hp)
        intro l hl
        rcases List.mem_append.1 hl with hl | hl
        · exact forbid_known hs.1 l hl
        · exact forbid_known hs.2.1 l hl)
  refine ⟨F, hF, ?_⟩
  rw [hc.sat, ← homog_iff hn hv]
  have key := fun α : Str → Bool => BinaryMapping.C49_binary (BinaryMapping.mk (oneTo k) nodes bits (fmt2 "Y".toList) true true) hb hn α
  have hfi := fun (α : Str → Bool) (i : Nat) {r : Nat} (hr : r ∈ nodes) =>
    BinaryMapping.forbidImage_true (BinaryMapping.mk (oneTo k) nodes bits (fmt2 "Y".toList) true true) hb α i hr
  simp only [allTrue_append, key, true_imp_iff, allTrue_flatMap, allTrue_map]
  dsimp only at hfi ⊢
  constructor
  · rintro ⟨α, ⟨h1, h2, h3⟩, h4⟩
    have hlt : ∀ i j, i < j → j < k → binVal α (fmt2 "Y".toList (i + 1)) bits < binVal α (fmt2 "Y".toList (j + 1)) bits := by
      intro i j hij hj
      have hs := (sorted_pair (oneTo_sorted k)).2 ⟨mem_oneTo.2 ⟨show 1 ≤ i + 1 by omega, by omega⟩, mem_oneTo.2 ⟨show 1 ≤ j + 1 by omega, by omega⟩, by omega⟩
      have := h2 _ _ hs
      have := h3 _ _ hs
      omega
    have hN : ∀ i < k, binVal α (fmt2 "Y".toList (i + 1)) bits < nodes.length := fun i hi => h1 (i + 1) (mem_oneTo.2 ⟨by omega, by omega⟩)
    refine ⟨fun i => binVal α (fmt2 "Y".toList (i + 1)) bits, ⟨hN, fun i j hij hj => ?_⟩, fun i j hij hj => ?_⟩
    · have := hlt i j hij hj
      exact ⟨Nat.ne_of_lt this, fun _ => this⟩
    · by_contra hne
      have hi' := hN i (hij.trans hj)
      have hj' := hN j hj
      have e : ∀ x < nodes.length, nodes.idxOf (nodes.getD x 0) = x := fun x hx => by
        rw [List.getD_eq_getElem?_getD, List.getElem?_eq_getElem hx]; exact hn.idxOf_getElem x hx
      have := h4 (i + 1, j + 1) (oneTo_pairs.2 ⟨mem_oneTo.2 ⟨by omega, by omega⟩, mem_oneTo.2 ⟨by omega, by omega⟩, by omega⟩)
        (nodes.getD (binVal α (fmt2 "Y".toList (i + 1)) bits) 0, nodes.getD (binVal α (fmt2 "Y".toList (j + 1)) bits) 0)
        (by
          rw [List.mem_filter]
          refine ⟨mem_pairs.2 ((sublist_idx hn).2 ⟨getD_mem hi', getD_mem hj', ?_⟩), by simpa using hne⟩
          rw [e _ hi', e _ hj']
          exact hlt i j hij hj)
      dsimp only at this
      rw [clauseTrue_append, hfi α _ (getD_mem hi'), hfi α _ (getD_mem hj'), e _ hi', e _ hj'] at this
      simp at this
  · rintro ⟨f, hP, hE⟩
    obtain ⟨α, ha⟩ := exists_assign (fmt2_injective "Y".toList) (fun p => (f (p.1 - 1)).testBit p.2)
    have hval : ∀ i, 1 ≤ i ∧ i ≤ k → binVal α (fmt2 "Y".toList i) bits = f (i - 1) := by
      intro i hi
      have := hP.1 (i - 1) (by omega)
      rw [binVal_testBit α _ (f (i - 1)) (fun k => ha (i, k)), Nat.mod_eq_of_lt (by omega)]
    have hs : ∀ i j, [i, j].Sublist (oneTo k) → (1 ≤ i ∧ i ≤ k) ∧ (1 ≤ j ∧ j ≤ k) ∧ f (i - 1) < f (j - 1) := by
      intro i j h
      obtain ⟨a, b, c⟩ := (sorted_pair (oneTo_sorted k)).1 h
      rw [mem_oneTo] at a b
      exact ⟨a, b, (hP.2 (i - 1) (j - 1) (by omega) (by omega)).2 rfl⟩
    refine ⟨α, ⟨fun i hi => ?_, fun i j h => ?_, fun i j h => ?_⟩, ?_⟩
    · have hi := mem_oneTo.1 hi
      rw [hval i hi]; exact hP.1 _ (by omega)
    · obtain ⟨a, b, c⟩ := hs i j h
      rw [hval i a, hval j b]; omega
    · obtain ⟨a, b, c⟩ := hs i j h
      rw [hval i a, hval j b]; omega
    · rintro ⟨i, j⟩ hp ⟨u, v⟩ hq
      obtain ⟨a, b, c⟩ := hs i j (mem_pairs.1 hp)
      rw [List.mem_filter] at hq
      obtain ⟨hu, hv', hlt⟩ := (sublist_idx hn).1 (mem_pairs.1 hq.1)
      rw [clauseTrue_append, hfi α _ hu, hfi α _ hv', hval i a, hval j b]
      by_contra hcon
      push Not at hcon
      have hij := (oneTo_pairs.1 hp).2.2
      have := hE (i - 1) (j - 1) (by omega) (by omega)
      rw [hcon.1, hcon.2, getD_idxOf hu, getD_idxOf hv'] at this
      simp [this] at hq

end NDP.Cnfgen
