import Verif.Cnfgen.Digraph
import Mathlib.Tactic.Ring
/-
  C64: `families/pebbling.py` and the graphs `dag_pyramid`, `dag_complete_binary_tree` of `graphs.py`.
-/
namespace NDP.Cnfgen
open NDP

/-! ### Model -/

/-- `families/pebbling.py` 66-73: the clauses of a vertex. -/
def pebVertex {V : Type} [DecidableEq V] (g : Digraph V) (v : V) : List (List (Lit V)) :=
  (((g.preds v).map fun p => (false, p)) ++ [(true, v)]) :: if g.isSink v then [[(false, v)]] else []

/-- `families/pebbling.py` 39-75 (`PebblingFormula`). -/
def pebbling {V : Type} [DecidableEq V] (g : Digraph V) : M (CNF V) :=
  if g.isDag then CNF.ofParts g.verts (g.verts.flatMap (pebVertex g)) else raise .valueError

/-- `families/pebbling.py` 27-35 (`_uniqify_list`): first occurrences. -/
def uniqify : List Nat → List Nat
  | [] => []
  | x :: xs => x :: (uniqify xs).filter (· ≠ x)

/-- `families/pebbling.py` 123-132, 235-243: stones on the predecessors and on the vertex.  `images v`: the stones allowed on `v`;
`P v j`: "stone `j` is on `v`"; `R j`: "stone `j` is red". -/
def stoneStep {V : Type} [DecidableEq V] (g : Digraph V) (images : V → List Nat) (P : V → Nat → Str) (R : Nat → Str) (v : V) (j : Nat) :
    List (List (Lit Str)) :=
  (product ((g.preds v).map fun p => (images p).filter (· ≠ j))).map fun t =>
    (List.zipWith (fun p s => (false, P p s)) (g.preds v) t) ++ [(false, P v j)] ++ ((uniqify t).map fun s => (false, R s)) ++ [(true, R j)]

/-- `families/pebbling.py` 121-139, 234-248. -/
def stoneVertex {V : Type} [DecidableEq V] (g : Digraph V) (images : V → List Nat) (P : V → Nat → Str) (R : Nat → Str) (v : V) : List (List (Lit Str)) :=
  ((images v).flatMap fun j => stoneStep g images P R v j) ++
    if g.isSink v then (images v).map fun j => [(false, P v j), (false, R j)] else []

/-- `'<pre>_{{{0},{1}}}'.format(v,j)` for a vertex `v` that prints as `nm v`. -/
def fmtV {V : Type} (nm : V → Str) (pre : Char) (v : V) (j : Nat) : Str := pre :: '_' :: '{' :: (nm v ++ ',' :: (natStr j ++ ['}']))

/-- `'R_{{{0}}}'.format(j)`. -/
def stoneR (j : Nat) : Str := fmt1 ['R'] j

/-- `families/pebbling.py` 143-250 (`StoneFormula`).  `nm v` is `str(v)`. -/
def stone {V : Type} [DecidableEq V] (nm : V → Str) (g : Digraph V) (nstones : Int) : M (CNF Str) :=
  if g.isDag = false then raise .valueError
  else if nstones < 0 then raise .valueError
  else
    let stones := oneTo nstones.toNat
    let P := fmtV nm 'P'
    CNF.ofParts ((g.verts.flatMap fun v => stones.map fun j => P v j) ++ stones.map stoneR)
      ((g.verts.map fun v => stones.map fun j => (true, P v j)) ++ g.verts.flatMap (stoneVertex g (fun _ => stones) P stoneR))

/-- `cnf.py` 1206-1212 (`images`) for the mapping of `families/pebbling.py` 333: the vertex at position `i` of the graph is the vertex at
position `i` of the left side, the stones are the positions (from 1) in the right side. -/
def stoneImages {V : Type} [DecidableEq V] (g : Digraph V) (b : BiGraph) (v : V) : List Nat :=
  (b.nbrL (b.left.getD (g.verts.idxOf v) 0)).map fun u => b.right.idxOf u + 1

/-- `families/pebbling.py` 252-336 (`SparseStoneFormula`), 80-140 (`stone_formula_helper`). -/
def sparseStone {V : Type} [DecidableEq V] (nm : V → Str) (g : Digraph V) (b : BiGraph) : M (CNF Str) :=
  if g.isDag = false then raise .valueError
  else if b.left.length ≠ g.verts.length then raise .valueError
  else
    let stones := oneTo b.right.length
    let P := fmtV nm 'X'
    let images := stoneImages g b
    do
      let F ← CNF.ofParts ((g.verts.flatMap fun v => (images v).map fun j => P v j) ++ stones.map stoneR)
        (g.verts.flatMap fun v => greaterOrEqual ((images v).map fun j => P v j) 1)
      F.addAll true (g.verts.flatMap (stoneVertex g images P stoneR))

/-- `graphs.py` 1073-1104 (`dag_pyramid`): vertex `(h,i)` is named `x_{h,i}`. -/
def pyramid (height : Nat) : Digraph Str :=
  Digraph.map (fun p : Nat × Nat => fmt2 ['x'] p.1 p.2)
    ⟨(List.range (height + 1)).flatMap fun h => (List.range (height - h + 1)).map fun i => (h, i),
      (oneTo height).flatMap fun h => (List.range (height - h + 1)).flatMap fun i => [((h - 1, i), (h, i)), ((h - 1, i + 1), (h, i))]⟩

/-- `graphs.py` 1106-1132 (`dag_complete_binary_tree`): the vertex at index `i` is named `v_<i+1>`. -/
def binaryTree (height : Nat) : Digraph Str :=
  let len := 2 * 2 ^ height - 1
  let n := len - 1
  Digraph.map (fun i : Nat => 'v' :: '_' :: natStr (i + 1))
    ⟨List.range len, (List.range (len / 2)).flatMap fun i => [(n - 2 * i - 1, n - i), (n - 2 * i - 2, n - i)]⟩

/-! ### Pebbling -/

/-- **C64.** The pebbling formula is refused for a graph with a cycle; for an acyclic graph it is built, its variables are the vertices,
and it is unsatisfiable as soon as there is a vertex. -/
theorem C64_pebbling {V : Type} [DecidableEq V] (g : Digraph V) (hg : g.Wf) :
    (¬ g.Acyclic → pebbling g = raise .valueError) ∧
    (g.Acyclic → ∃ F, pebbling g = pure F ∧ F.vars = g.verts ∧ (Spec.Satisfiable F.clauses ↔ g.verts = [])) := by
  constructor
  · intro h
    unfold pebbling
    rw [if_neg (by rw [Digraph.isDag_iff hg]; exact h)]
  · intro h
    unfold pebbling
    rw [if_pos ((Digraph.isDag_iff hg).2 h)]
    obtain ⟨F, hF, hc, hv⟩ := CNF.ofParts_ok (vs := g.verts) (cs := g.verts.flatMap (pebVertex g)) (by
      intro c hc l hl
      obtain ⟨v, hv, hc⟩ := List.mem_flatMap.1 hc
      unfold pebVertex at hc
      rcases List.mem_cons.1 hc with rfl | hc
      · rcases List.mem_append.1 hl with hl | hl
        · obtain ⟨p, hp, rfl⟩ := List.mem_map.1 hl
          exact (List.mem_filter.1 hp).1
        · rw [List.mem_singleton.1 hl]; exact hv
      · split at hc
        · rw [List.mem_singleton.1 hc] at hl
          rw [List.mem_singleton.1 hl]; exact hv
        · simp at hc)
    refine ⟨F, hF, hv hg.nodup, ?_⟩
    rw [hc.sat]
    constructor
    · rintro ⟨α, ha⟩
      rw [allTrue_flatMap] at ha
      by_contra hne
      obtain ⟨s, hs, hsink⟩ := Digraph.exists_isSink hg h hne
      have htrue : ∀ v ∈ g.verts, α v = true := by
        refine Digraph.dag_induction hg h fun v hv hp => ?_
        have := ha v hv _ (List.mem_cons_self)
        rw [clauseTrue_append] at this
        rcases this with ⟨l, hl, ht⟩ | ht
        · obtain ⟨p, hpp, rfl⟩ := List.mem_map.1 hl
          have := hp p ((Digraph.mem_preds hg).1 hpp)
          simp [this] at ht
        · simpa [clauseTrue_cons, clauseTrue_nil] using ht
      have := ha s hs [(false, s)] (by unfold pebVertex; rw [if_pos hsink]; simp)
      simp [clauseTrue_cons, clauseTrue_nil, htrue s hs] at this
    · intro he
      exact ⟨fun _ => true, by rw [he]; exact allTrue_nil _⟩

/-! ### Stones -/

theorem mem_uniqify : ∀ {l : List Nat} {x : Nat}, x ∈ uniqify l ↔ x ∈ l
  | [], x => by simp [uniqify]
  | a :: l, x => by
    simp only [uniqify, List.mem_cons, List.mem_filter, mem_uniqify (l := l), decide_eq_true_eq]
    by_cases h : x = a <;> simp [h]

theorem uniqify_nodup : ∀ l : List Nat, (uniqify l).Nodup
  | [] => by simp [uniqify]
  | a :: l => by
    rw [uniqify, List.nodup_cons]
    exact ⟨by simp, (uniqify_nodup l).filter _⟩

theorem stone_unsat {V : Type} [DecidableEq V] {g : Digraph V} (hg : g.Wf) (ha : g.Acyclic) (images : V → List Nat) (P : V → Nat → Str)
    (R : Nat → Str) (α : Str → Bool) (h1 : ∀ v ∈ g.verts, ∃ j ∈ images v, α (P v j) = true)
    (h2 : AllTrue α (g.verts.flatMap (stoneVertex g images P R))) : g.verts = [] := by
  by_contra hne
  rw [allTrue_flatMap] at h2
  have hred : ∀ v ∈ g.verts, ∀ j ∈ images v, α (P v j) = true → α (R j) = true := by
    refine Digraph.dag_induction hg ha (P := fun v => ∀ j ∈ images v, α (P v j) = true → α (R j) = true) fun v hv ih j hj hp => ?_
    have hstone : ∀ p ∈ g.preds v, ∃ s ∈ images p, α (P p s) = true ∧ α (R s) = true := by
      intro p hp
      have he := (Digraph.mem_preds hg).1 hp
      obtain ⟨s, hs, ht⟩ := h1 p (hg.ends _ he).1
      exact ⟨s, hs, ht, ih p he s hs ht⟩
    choose! s hs using hstone
    by_cases hj' : ∃ p ∈ g.preds v, s p = j
    · obtain ⟨p, hpp, rfl⟩ := hj'; exact (hs p hpp).2.2
    · simp only [not_exists, not_and] at hj'
      have hmem : (g.preds v).map s ∈ product ((g.preds v).map fun p => (images p).filter (· ≠ j)) := by
        rw [mem_product, List.forall₂_map_left_iff, List.forall₂_map_right_iff, List.forall₂_same]
        intro p hp
        exact List.mem_filter.2 ⟨(hs p hp).1, by simpa using hj' p hp⟩
      have := h2 v hv _ (List.mem_append_left _ (List.mem_flatMap.2 ⟨j, hj, List.mem_map.2 ⟨_, hmem, rfl⟩⟩))
      simp only [clauseTrue_append] at this
      rcases this with ((⟨l, hl, ht⟩ | ht) | ⟨l, hl, ht⟩) | ht
      · rw [List.zipWith_map_right, List.zipWith_self] at hl
        obtain ⟨p, hp, rfl⟩ := List.mem_map.1 hl
        simp [(hs p hp).2.1] at ht
      · simp [clauseTrue_cons, clauseTrue_nil, hp] at ht
      · obtain ⟨x, hx, rfl⟩ := List.mem_map.1 hl
        obtain ⟨p, hp, rfl⟩ := List.mem_map.1 (mem_uniqify.1 hx)
        simp [(hs p hp).2.2] at ht
      · simpa [clauseTrue_cons, clauseTrue_nil] using ht
  obtain ⟨v, hv, hsink⟩ := Digraph.exists_isSink hg ha hne
  obtain ⟨j, hj, ht⟩ := h1 v hv
  have := h2 v hv [(false, P v j), (false, R j)] (List.mem_append_right _ (by rw [if_pos hsink]; exact List.mem_map.2 ⟨j, hj, rfl⟩))
  simp [clauseTrue_cons, clauseTrue_nil, ht, hred v hv j hj ht] at this

theorem mem_zipWith_lit {V : Type} {P : V → Nat → Str} {images : V → List Nat} {l : Lit Str} :
    ∀ {ps : List V} {t : List Nat}, List.Forall₂ (fun s p => s ∈ images p) t ps → l ∈ List.zipWith (fun p s => (false, P p s)) ps t →
      ∃ p ∈ ps, ∃ s ∈ images p, s ∈ t ∧ l = (false, P p s)
  | [], _, _, h => by simp at h
  | p :: ps, [], hf, h => by simp at h
  | p :: ps, s :: t, hf, h => by
    rw [List.forall₂_cons] at hf
    rw [List.zipWith_cons_cons, List.mem_cons] at h
    rcases h with rfl | h
    · exact ⟨p, by simp, s, hf.1, by simp, rfl⟩
    · obtain ⟨q, hq, s', hs', ht, e⟩ := mem_zipWith_lit hf.2 h
      exact ⟨q, by simp [hq], s', hs', by simp [ht], e⟩

theorem mem_product_preds {V : Type} {images : V → List Nat} {j : Nat} {ps : List V} {t : List Nat}
    (h : t ∈ product (ps.map fun p => (images p).filter (· ≠ j))) : List.Forall₂ (fun s p => s ∈ images p) t ps ∧ j ∉ t := by
  rw [mem_product, List.forall₂_map_right_iff] at h
  constructor
  · exact h.imp (fun s p hs => (List.mem_filter.1 hs).1)
  · induction h with
    | nil => simp
    | cons h1 _ ih =>
      rw [List.mem_cons, not_or]
      exact ⟨fun e => by simpa [e] using (List.mem_filter.1 h1).2, ih⟩

theorem forall₂_mem {V : Type} {images : V → List Nat} {t : List Nat} {ps : List V} (hf : List.Forall₂ (fun s p => s ∈ images p) t ps) {s : Nat}
    (hs : s ∈ t) : ∃ p ∈ ps, s ∈ images p := by
  induction hf with
  | nil => simp at hs
  | cons h1 _ ih =>
    rcases List.mem_cons.1 hs with rfl | hs
    · exact ⟨_, List.mem_cons_self, h1⟩
    · obtain ⟨p, hp, h2⟩ := ih hs
      exact ⟨p, List.mem_cons_of_mem _ hp, h2⟩

/-- The names in the clauses are those of the variables. -/
theorem stone_known {V : Type} [DecidableEq V] {g : Digraph V} {images : V → List Nat} {P : V → Nat → Str} {R : Nat → Str} {stones : List Nat}
    (hi : ∀ v ∈ g.verts, ∀ j ∈ images v, j ∈ stones) : ∀ c ∈ g.verts.flatMap (stoneVertex g images P R), ∀ l ∈ c,
      l.2 ∈ (g.verts.flatMap fun v => (images v).map fun j => P v j) ++ stones.map R := by
  have hP : ∀ v ∈ g.verts, ∀ j ∈ images v, P v j ∈ (g.verts.flatMap fun v => (images v).map fun j => P v j) ++ stones.map R := fun v hv j hj =>
    List.mem_append_left _ (List.mem_flatMap.2 ⟨v, hv, List.mem_map.2 ⟨j, hj, rfl⟩⟩)
  have hR : ∀ v ∈ g.verts, ∀ j ∈ images v, R j ∈ (g.verts.flatMap fun v => (images v).map fun j => P v j) ++ stones.map R := fun v hv j hj =>
    List.mem_append_right _ (List.mem_map.2 ⟨j, hi v hv j hj, rfl⟩)
  intro c hc l hl
  obtain ⟨v, hv, hc⟩ := List.mem_flatMap.1 hc
  rcases List.mem_append.1 hc with hc | hc
  · obtain ⟨j, hj, hc⟩ := List.mem_flatMap.1 hc
    obtain ⟨t, ht, rfl⟩ := List.mem_map.1 hc
    obtain ⟨hf, _⟩ := mem_product_preds ht
    simp only [List.mem_append] at hl
    rcases hl with ((hl | hl) | hl) | hl
    · obtain ⟨p, hp, s, hs, _, rfl⟩ := mem_zipWith_lit hf hl
      exact hP p (List.mem_filter.1 hp).1 s hs
    · rw [List.mem_singleton.1 hl]; exact hP v hv j hj
    · obtain ⟨s, hs, rfl⟩ := List.mem_map.1 hl
      have : ∃ p ∈ g.preds v, s ∈ images p := forall₂_mem hf (mem_uniqify.1 hs)
      obtain ⟨p, hp, h2⟩ := this
      exact hR p (List.mem_filter.1 hp).1 s h2
    · rw [List.mem_singleton.1 hl]; exact hR v hv j hj
  · split at hc
    · obtain ⟨j, hj, rfl⟩ := List.mem_map.1 hc
      simp only [List.mem_cons, List.not_mem_nil, or_false] at hl
      rcases hl with rfl | rfl
      · exact hP v hv j hj
      · exact hR v hv j hj
    · simp at hc

/-- **C64.** Stone formulas: a cycle or a negative number of stones is refused; otherwise the formula is built, and it is unsatisfiable as
soon as there is a vertex, whatever the number of stones. -/
theorem C64_stone {V : Type} [DecidableEq V] (nm : V → Str) (g : Digraph V) (hg : g.Wf) (nstones : Int) :
    (¬ g.Acyclic ∨ nstones < 0 → stone nm g nstones = raise .valueError) ∧
    (g.Acyclic → 0 ≤ nstones → ∃ F, stone nm g nstones = pure F ∧ (Spec.Satisfiable F.clauses ↔ g.verts = [])) := by
  constructor
  · intro h
    unfold stone
    split
    · rfl
    · rename_i hd
      rw [if_pos]
      rcases h with h | h
      · exact absurd ((Digraph.isDag_iff hg).1 (by simpa using hd)) h
      · exact h
  · intro h hs
    unfold stone
    rw [if_neg (by rw [Bool.not_eq_false]; exact (Digraph.isDag_iff hg).2 h), if_neg (by omega)]
    dsimp only
    obtain ⟨F, hF, hc, _⟩ := CNF.ofParts_ok
      (vs := (g.verts.flatMap fun v => (oneTo nstones.toNat).map fun j => fmtV nm 'P' v j) ++ (oneTo nstones.toNat).map stoneR)
      (cs := (g.verts.map fun v => (oneTo nstones.toNat).map fun j => (true, fmtV nm 'P' v j)) ++
        g.verts.flatMap (stoneVertex g (fun _ => oneTo nstones.toNat) (fmtV nm 'P') stoneR)) (by
      intro c hc l hl
      rcases List.mem_append.1 hc with hc | hc
      · obtain ⟨v, hv, rfl⟩ := List.mem_map.1 hc
        obtain ⟨j, hj, rfl⟩ := List.mem_map.1 hl
        exact List.mem_append_left _ (List.mem_flatMap.2 ⟨v, hv, List.mem_map.2 ⟨j, hj, rfl⟩⟩)
      · exact stone_known (images := fun _ => oneTo nstones.toNat) (fun _ _ _ h => h) c hc l hl)
    refine ⟨F, hF, ?_⟩
    rw [hc.sat]
    constructor
    · rintro ⟨α, ha⟩
      rw [allTrue_append, allTrue_map] at ha
      refine stone_unsat hg h _ _ _ α (fun v hv => ?_) ha.2
      obtain ⟨l, hl, ht⟩ := ha.1 v hv
      obtain ⟨j, hj, rfl⟩ := List.mem_map.1 hl
      exact ⟨j, hj, ht⟩
    · intro he
      exact ⟨fun _ => true, by rw [he]; exact allTrue_nil _⟩

/-! ### Sparse stones -/

theorem sep_inj_right {c : Char} {a a' r r' : Str} (h1 : c ∉ r) (h2 : c ∉ r') (h : a ++ c :: r = a' ++ c :: r') : a = a' ∧ r = r' := by
  have h := congrArg List.reverse h
  simp only [List.reverse_append, List.reverse_cons, List.append_assoc, List.cons_append, List.nil_append] at h
  obtain ⟨e1, e2⟩ := sep_inj (by simpa using h1) (by simpa using h2) h
  exact ⟨List.reverse_injective e2, List.reverse_injective e1⟩

theorem fmtV_inj {V : Type} {nm : V → Str} (hnm : Function.Injective nm) {pre : Char} {v w : V} {i j : Nat}
    (h : fmtV nm pre v i = fmtV nm pre w j) : v = w ∧ i = j := by
  unfold fmtV at h
  simp only [List.cons.injEq, true_and] at h
  have hc : ∀ n : Nat, ',' ∉ natStr n ++ ['}'] := fun n => by
    rw [List.mem_append, not_or]
    exact ⟨not_mem_natStr (by decide), by simp⟩
  obtain ⟨h1, h2⟩ := sep_inj_right (hc i) (hc j) h
  exact ⟨hnm h1, (sepNat_inj (c := '}') (by decide) h2).1⟩

theorem fmtV_ne_R {V : Type} {nm : V → Str} {v : V} {i j : Nat} : fmtV nm 'X' v i ≠ stoneR j := by
  unfold fmtV stoneR fmt1
  simp

theorem ofParts_mem {V : Type} [DecidableEq V] {vs : List V} {cs : List (List (Lit V))} {F : CNF V} (h : ∀ c ∈ cs, ∀ l ∈ c, l.2 ∈ vs)
    (hF : CNF.ofParts vs cs = pure F) : ∀ v ∈ vs, v ∈ F.vars := by
  intro v hv
  obtain ⟨G, h1, _, h3⟩ := CNF.addAllUnsafe_ok (ds := cs) (CNF.coh_empty.addVariables (vs := vs))
    (fun c hc l hl => CNF.mem_addVariables.2 (.inr (h c hc l hl)))
  unfold CNF.ofParts at hF
  rw [hF] at h1
  rw [(M.pure_inj _ _).1 h1, h3]
  exact CNF.mem_addVariables.2 (.inr hv)

theorem zip_nodup {V : Type} {P : V → Nat → Str} (hP : ∀ {v w i j}, P v i = P w j → v = w ∧ i = j) :
    ∀ {ps : List V} {t : List Nat}, ps.Nodup →
      ((List.zipWith (fun p s => ((false, P p s) : Lit Str)) ps t).map Prod.snd).Nodup ∧
      ∀ x ∈ (List.zipWith (fun p s => ((false, P p s) : Lit Str)) ps t).map Prod.snd, ∃ p ∈ ps, ∃ s, x = P p s
  | [], t, _ => by simp
  | p :: ps, [], _ => by simp
  | p :: ps, s :: t, hn => by
    rw [List.nodup_cons] at hn
    obtain ⟨h1, h2⟩ := zip_nodup (t := t) hP hn.2
    rw [List.zipWith_cons_cons, List.map_cons]
    constructor
    · rw [List.nodup_cons]
      refine ⟨fun hm => ?_, h1⟩
      obtain ⟨q, hq, s', e⟩ := h2 _ hm
      exact hn.1 ((hP e).1 ▸ hq)
    · intro x hx
      rcases List.mem_cons.1 hx with rfl | hx
      · exact ⟨p, by simp, s, rfl⟩
      · obtain ⟨q, hq, h⟩ := h2 x hx
        exact ⟨q, by simp [hq], h⟩

/-- No literal is repeated in a clause. -/
theorem stone_nodup {V : Type} [DecidableEq V] {g : Digraph V} (hg : g.Wf) (ha : g.Acyclic) {images : V → List Nat} {P : V → Nat → Str} {R : Nat → Str}
    (hP : ∀ {v w i j}, P v i = P w j → v = w ∧ i = j) (hR : ∀ {i j}, R i = R j → i = j) (hPR : ∀ {v i j}, P v i ≠ R j) :
    ∀ c ∈ g.verts.flatMap (stoneVertex g images P R), (c.map Prod.snd).Nodup := by
  intro c hc
  obtain ⟨v, hv, hc⟩ := List.mem_flatMap.1 hc
  rcases List.mem_append.1 hc with hc | hc
  · obtain ⟨j, hj, hc⟩ := List.mem_flatMap.1 hc
    obtain ⟨t, ht, rfl⟩ := List.mem_map.1 hc
    obtain ⟨_, hjt⟩ := mem_product_preds ht
    obtain ⟨z1, z2⟩ := zip_nodup (t := t) hP (hg.nodup.filter fun p => decide ((p, v) ∈ g.edges))
    have hvp : v ∉ g.preds v := fun h => ha v (.single ((Digraph.mem_preds hg).1 h))
    simp only [List.map_append, List.map_map, List.map_cons, List.map_nil]
    have n1 : ((List.zipWith (fun p s => ((false, P p s) : Lit Str)) (g.preds v) t).map Prod.snd ++ [P v j]).Nodup := by
      rw [List.nodup_append]
      refine ⟨z1, by simp, ?_⟩
      rintro a ha' b hb rfl
      rw [List.mem_singleton] at hb
      obtain ⟨p, hp, s, e⟩ := z2 a ha'
      have hvp' : v = p := (hP (hb.symm.trans e)).1
      exact hvp (by rw [hvp'] at hp ⊢; exact hvp' ▸ hp)
    have n2 : ((uniqify t).map (Prod.snd ∘ fun s => ((false, R s) : Lit Str)) ++ [R j]).Nodup := by
      rw [List.nodup_append]
      refine ⟨List.Nodup.map (fun a b e => hR e) (uniqify_nodup t), by simp, ?_⟩
      rintro a ha' b hb rfl
      rw [List.mem_singleton] at hb
      obtain ⟨s, hs, e⟩ := List.mem_map.1 ha'
      have : s = j := hR (e.trans hb)
      exact hjt (this ▸ mem_uniqify.1 hs)
    rw [List.append_assoc, List.nodup_append]
    refine ⟨n1, n2, ?_⟩
    rintro a ha' b hb rfl
    have e1 : ∃ v i, a = P v i := by
      rcases List.mem_append.1 ha' with h | h
      · obtain ⟨p, _, s, e⟩ := z2 a h; exact ⟨p, s, e⟩
      · exact ⟨v, j, List.mem_singleton.1 h⟩
    have e2 : ∃ i, a = R i := by
      rcases List.mem_append.1 hb with h | h
      · obtain ⟨s, _, e⟩ := List.mem_map.1 h; exact ⟨s, e.symm⟩
      · exact ⟨j, List.mem_singleton.1 h⟩
    obtain ⟨_, _, e1⟩ := e1
    obtain ⟨_, e2⟩ := e2
    exact hPR (e1.symm.trans e2)
  · split at hc
    · obtain ⟨j, hj, rfl⟩ := List.mem_map.1 hc
      exact nodup2 hPR
    · simp at hc

/-- **C64.** Sparse stone formulas: a cycle, or a bipartite graph whose left side has another size than the graph, is refused; otherwise the
formula is built, and it is unsatisfiable as soon as there is a vertex, whatever stones are allowed. -/
theorem C64_sparse_stone {V : Type} [DecidableEq V] (nm : V → Str) (hnm : Function.Injective nm) (g : Digraph V) (hg : g.Wf) (b : BiGraph) :
    (¬ g.Acyclic ∨ b.left.length ≠ g.verts.length → sparseStone nm g b = raise .valueError) ∧
    (g.Acyclic → b.left.length = g.verts.length → ∃ F, sparseStone nm g b = pure F ∧ (Spec.Satisfiable F.clauses ↔ g.verts = [])) := by
  constructor
  · intro h
    unfold sparseStone
    split
    · rfl
    · rename_i hd
      rw [if_pos]
      rcases h with h | h
      · exact absurd ((Digraph.isDag_iff hg).1 (by simpa using hd)) h
      · exact h
  · intro h hs
    unfold sparseStone
    rw [if_neg (by rw [Bool.not_eq_false]; exact (Digraph.isDag_iff hg).2 h), if_neg (by omega)]
    dsimp only
    have hi : ∀ v ∈ g.verts, ∀ j ∈ stoneImages g b v, j ∈ oneTo b.right.length := by
      intro v _ j hj
      obtain ⟨u, hu, rfl⟩ := List.mem_map.1 hj
      have := List.idxOf_lt_length_of_mem (mem_nbrL.1 hu).1
      exact mem_oneTo.2 ⟨by omega, by omega⟩
    have hk : ∀ c ∈ g.verts.flatMap fun v => greaterOrEqual ((stoneImages g b v).map fun j => fmtV nm 'X' v j) 1, ∀ l ∈ c,
        l.2 ∈ (g.verts.flatMap fun v => (stoneImages g b v).map fun j => fmtV nm 'X' v j) ++ (oneTo b.right.length).map stoneR := by
      intro c hc l hl
      obtain ⟨v, hv, hc⟩ := List.mem_flatMap.1 hc
      exact List.mem_append_left _ (List.mem_flatMap.2 ⟨v, hv, (mem_inequality hc).subset (List.mem_map_of_mem hl)⟩)
    obtain ⟨F, hF, hc, _⟩ := CNF.ofParts_ok hk
    obtain ⟨G, hG, hd, _⟩ := CNF.addAll_ok (strict := true) hc (ds := g.verts.flatMap (stoneVertex g (stoneImages g b) (fmtV nm 'X') stoneR))
      (stone_nodup hg h (fun e => fmtV_inj hnm e) (fun e => fmt1_inj e) fmtV_ne_R)
      (fun _ c hc l hl => ofParts_mem hk hF _ (stone_known hi c hc l hl))
    refine ⟨G, by rw [hF, M.pure_bind, hG], ?_⟩
    rw [hd.sat]
    constructor
    · rintro ⟨α, ha⟩
      rw [allTrue_append, allTrue_flatMap] at ha
      refine stone_unsat hg h _ _ _ α (fun v hv => ?_) ha.2
      obtain ⟨n, hn, ht⟩ := (allTrue_geOne _ _).1 (ha.1 v hv)
      obtain ⟨j, hj, rfl⟩ := List.mem_map.1 hn
      exact ⟨j, hj, ht⟩
    · intro he
      exact ⟨fun _ => true, by rw [he]; exact allTrue_nil _⟩

/-! ### Pyramids and trees -/

theorem fmt2_pair_injective (pre : Str) : Function.Injective (fun p : Nat × Nat => fmt2 pre p.1 p.2) := fmt2_injective pre

theorem pyramid_ok (height : Nat) : (pyramid height).Wf ∧ (pyramid height).Acyclic := by
  have hm : ∀ a b : Nat, (a, b) ∈ ((List.range (height + 1)).flatMap fun h => (List.range (height - h + 1)).map fun i => (h, i)) ↔ a + b ≤ height := by
    intro a b
    simp only [List.mem_flatMap, List.mem_range, List.mem_map, Prod.mk.injEq]
    constructor
    · rintro ⟨h, h1, i, h2, rfl, rfl⟩; omega
    · intro h; exact ⟨a, by omega, b, by omega, rfl, rfl⟩
  constructor
  · refine Digraph.Wf.map (fmt2_injective ['x']) ⟨?_, ?_⟩
    · exact nodup_flatMap_key Prod.fst (fun h => (List.range (height - h + 1)).map fun i => (h, i)) _ List.nodup_range
        (fun u => List.Nodup.map (fun a b e => by simpa using e) List.nodup_range)
        (fun u a ha => by obtain ⟨i, _, rfl⟩ := List.mem_map.1 ha; rfl)
    · rintro ⟨⟨a, b⟩, c, d⟩ he
      obtain ⟨h, hh, he⟩ := List.mem_flatMap.1 he
      obtain ⟨i, hi, he⟩ := List.mem_flatMap.1 he
      rw [mem_oneTo] at hh
      rw [List.mem_range] at hi
      simp only [List.mem_cons, Prod.mk.injEq, List.not_mem_nil, or_false] at he
      dsimp only
      rw [hm, hm]
      omega
  · refine Digraph.Acyclic.map (fmt2_injective ['x']) (Digraph.acyclic_of_rank Prod.fst ?_)
    rintro ⟨⟨a, b⟩, c, d⟩ he
    obtain ⟨h, hh, he⟩ := List.mem_flatMap.1 he
    obtain ⟨i, hi, he⟩ := List.mem_flatMap.1 he
    rw [mem_oneTo] at hh
    simp only [List.mem_cons, Prod.mk.injEq, List.not_mem_nil, or_false] at he
    dsimp only
    omega

theorem treeName_injective : Function.Injective (fun i : Nat => 'v' :: '_' :: natStr (i + 1)) := by
  intro a b h
  simp only [List.cons.injEq, true_and] at h
  have := natStr_injective h
  omega

theorem binaryTree_ok (height : Nat) : (binaryTree height).Wf ∧ (binaryTree height).Acyclic := by
  have hp : 1 ≤ 2 ^ height := Nat.one_le_two_pow
  generalize hlen : 2 * 2 ^ height - 1 = len
  have hl : len % 2 = 1 := by omega
  unfold binaryTree
  rw [hlen]
  constructor
  · refine Digraph.Wf.map treeName_injective ⟨List.nodup_range, ?_⟩
    rintro ⟨a, b⟩ he
    obtain ⟨i, hi, he⟩ := List.mem_flatMap.1 he
    rw [List.mem_range] at hi
    simp only [List.mem_cons, Prod.mk.injEq, List.not_mem_nil, or_false] at he
    simp only [List.mem_range]
    omega
  · refine Digraph.Acyclic.map treeName_injective (Digraph.acyclic_of_rank id ?_)
    rintro ⟨a, b⟩ he
    obtain ⟨i, hi, he⟩ := List.mem_flatMap.1 he
    rw [List.mem_range] at hi
    simp only [List.mem_cons, Prod.mk.injEq, List.not_mem_nil, or_false] at he
    simp only [id]
    omega

/-- **C64.** The pyramid of every height and the complete binary tree of every height give unsatisfiable pebbling formulas, with one
variable for each vertex: `(h+1)(h+2)/2` and `2^(h+1)-1`. -/
theorem C64_builtin_dags (height : Nat) :
    (∃ F, pebbling (pyramid height) = pure F ∧ ¬ Spec.Satisfiable F.clauses ∧ 2 * F.vars.length = (height + 1) * (height + 2)) ∧
    (∃ F, pebbling (binaryTree height) = pure F ∧ ¬ Spec.Satisfiable F.clauses ∧ F.vars.length + 1 = 2 ^ (height + 1)) := by
  constructor
  · obtain ⟨F, h1, h2, h3⟩ := (C64_pebbling _ (pyramid_ok height).1).2 (pyramid_ok height).2
    have hlen : 2 * (pyramid height).verts.length = (height + 1) * (height + 2) := by
      simp only [pyramid, Digraph.map, List.length_map, List.length_flatMap, List.length_range]
      have : ∀ m n : Nat, m ≤ n + 1 → 2 * ((List.range m).map fun h => n - h + 1).sum = m * (2 * (n + 1) - m + 1) := by
        intro m n
        induction m with
        | zero => intro _; simp
        | succ m ih =>
          intro hm
          rw [List.range_succ, List.map_append, List.sum_append, Nat.mul_add, ih (by omega)]
          simp only [List.map_cons, List.map_nil, List.sum_cons, List.sum_nil]
          obtain ⟨k, rfl⟩ : ∃ k, n = m + k := ⟨n - m, by omega⟩
          rw [show 2 * (m + k + 1) - m + 1 = m + 2 * k + 3 by omega, show 2 * (m + k + 1) - (m + 1) + 1 = m + 2 * k + 2 by omega,
            show m + k - m + 1 = k + 1 by omega]
          ring
      rw [this (height + 1) height le_rfl]
      rw [show 2 * (height + 1) - (height + 1) + 1 = height + 2 by omega]
    refine ⟨F, h1, fun h => ?_, by rw [h2, hlen]⟩
    rw [h3.1 h] at hlen
    simp only [List.length_nil, Nat.mul_zero] at hlen
    have : 0 < (height + 1) * (height + 2) := Nat.mul_pos (by omega) (by omega)
    omega
  · obtain ⟨F, h1, h2, h3⟩ := (C64_pebbling _ (binaryTree_ok height).1).2 (binaryTree_ok height).2
    have hlen : (binaryTree height).verts.length + 1 = 2 ^ (height + 1) := by
      simp only [binaryTree, Digraph.map, List.length_map, List.length_range]
      have hp : 1 ≤ 2 ^ height := Nat.one_le_two_pow
      rw [pow_succ]; omega
    refine ⟨F, h1, fun h => ?_, by rw [h2, hlen]⟩
    rw [h3.1 h] at hlen
    have hp : 2 ≤ 2 ^ (height + 1) := by rw [pow_succ]; have : 1 ≤ 2 ^ height := Nat.one_le_two_pow; omega
    simp only [List.length_nil] at hlen
    omega

/-- A cycle is refused; the stone formulas of a pyramid are unsatisfiable for every number of stones. -/
example (n : Int) (hn : 0 ≤ n) : pebbling (⟨[1, 2], [(1, 2), (2, 1)]⟩ : Digraph Nat) = raise .valueError ∧
    ∃ F, stone id (pyramid 3) n = pure F ∧ ¬ Spec.Satisfiable F.clauses := by
  refine ⟨(C64_pebbling _ ⟨by decide, by decide⟩).1 fun h => h 1 (.tail (b := 2) (.single (by decide)) (by decide)), ?_⟩
  obtain ⟨F, h1, h2⟩ := (C64_stone id (pyramid 3) (pyramid_ok 3).1 n).2 (pyramid_ok 3).2 hn
  refine ⟨F, h1, fun h => ?_⟩
  have := h2.1 h
  have h3 : (pyramid 3).verts.length = 10 := by
    simp only [pyramid, Digraph.map, List.length_map]; decide
  rw [this] at h3; simp at h3

/-- A path of two vertices, with two stones on the first and one on the second. -/
example : ∃ F, sparseStone natStr (⟨[1, 2], [(1, 2)]⟩ : Digraph Nat) ⟨[1, 2], [3, 4], [(1, 3), (1, 4), (2, 4)]⟩ = pure F ∧ ¬ Spec.Satisfiable F.clauses := by
  obtain ⟨F, h1, h2⟩ := (C64_sparse_stone natStr (fun _ _ h => natStr_injective h) (⟨[1, 2], [(1, 2)]⟩ : Digraph Nat) ⟨by decide, by decide⟩
    ⟨[1, 2], [3, 4], [(1, 3), (1, 4), (2, 4)]⟩).2 (Digraph.acyclic_of_rank id (by decide)) (by decide)
  exact ⟨F, h1, fun h => absurd (h2.1 h) (by decide)⟩

end NDP.Cnfgen
