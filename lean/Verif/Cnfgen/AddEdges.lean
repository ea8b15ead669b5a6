import Verif.Cnfgen.BipGen
import Mathlib.Data.Sym.Sym2
/-
  Model of `sample_missing_edges` (`graphs.py`) and of the graph modifications of the command line (`cmdline.py`: `--plantclique`,
  `--plantbiclique`, `--addedges`), and C75.  Paths relative to `software/cnfgen/cnfformula`.  Random draws are arguments.  `n*(n-1)/2` is a
  floating point number in Python 3; here it is exact.
-/
namespace NDP.Cnfgen
open NDP

/-! ### Model -/
section
variable {V : Type} [DecidableEq V]

/-- `graphs.py` 402-421 (`has_bipartition`). -/
def Nx.labelled (G : Nx V) : Bool := G.nodes.all fun v => (G.color v).isSome

/-- `graphs.py` 424-427 (`bipartite_sets`), one side; the sides are sorted, which is not observable here. -/
def Nx.side (G : Nx V) (b : Bool) : List V := G.nodes.filter fun v => G.color v = some b

/-- `graphs.py` 1173-1200: `available_edges()`.  `ord` is the order in which `non_edges` (networkx) takes the nodes, an arbitrary one. -/
def availableEdges (G : Nx V) (ord : List V) : List (V × V) :=
  if G.labelled then ((G.side false).flatMap fun u => (G.side true).map fun v => (u, v)).filter fun e => !G.hasEdge e.1 e.2
  else (pairs ord).filter fun e => !G.hasEdge e.1 e.2

/-- `graphs.py` 1176, 1190: `total_number_of_edges`. -/
def totalEdges (G : Nx V) : Nat := if G.labelled then (G.side false).length * (G.side true).length else G.nodes.length * (G.nodes.length - 1) / 2

/-- `graphs.py` 1213-1222: one turn of the loop of the sparse case, `e` is drawn by `edge_sampler()`. -/
def sparseTurn (G : Nx V) (m : Nat) (S : List (V × V)) (e : V × V) : List (V × V) :=
  if S.length ≥ m then S
  else if e ∉ S ∧ (e.2, e.1) ∉ S ∧ G.hasEdge e.1 e.2 = false then S ++ [e] else S

/-- `graphs.py` 1134-1227 (`sample_missing_edges`).  `pos` are the positions chosen by `random.sample` in the dense case, `draw` the pairs drawn in
the sparse case.  The set returned in the sparse case is a list here. -/
def sampleMissing (G : Nx V) (ord : List V) (pos : List Nat) (draw : Nat → V × V) (m : Int) : M (List (V × V)) :=
  if m < 0 then raise .valueError
  else if (totalEdges G : Int) - G.edges.length < m then raise .valueError
  else if 2 * ((G.edges.length : Int) + m) ≥ totalEdges G then
    if m.toNat ≤ (availableEdges G ord).length then pure (pos.filterMap fun i => (availableEdges G ord)[i]?) else raise .valueError
  else
    let S := ((List.range (100 * m.toNat)).map draw).foldl (sparseTurn G m.toNat) []
    if S.length ≥ m.toNat then pure S else raise .runtimeError

/-- `cmdline.py` 485-493, `--plantclique k` (`k ≤ 1` does nothing); `clique` is chosen by `random.sample(G.nodes(), k)`. -/
def plantClique (G : Nx V) (clique : List V) (k : Nat) : M (Nx V) :=
  if k > 1 then if k > G.nodes.length then raise .valueError else pure (G.addEdges (pairs clique)) else pure G

/-- `cmdline.py` 726-736, `--plantbiclique l r`; `left` and `right` are chosen by `random.sample` from the sides. -/
def plantBiclique (G : Nx V) (left right : List V) (l r : Nat) : M (Nx V) :=
  if ¬ G.labelled then raise .keyError
  else if l > (G.side false).length ∨ r > (G.side true).length then raise .valueError
  else pure (G.addEdges (left.flatMap fun u => right.map fun v => (u, v)))

/-- `cmdline.py` 495-499 and 738-745, `--addedges k` (the change of the name is left out). -/
def addRandomEdges (G : Nx V) (ord : List V) (pos : List Nat) (draw : Nat → V × V) (k : Nat) : M (Nx V) := do
  let es ← sampleMissing G ord pos draw k
  pure (G.addEdges es)

/-! ### Specification -/

/-- Two vertices an edge may be added between: of different sides (the left one first) if the graph has sides, different ones otherwise. -/
def Nx.Joinable (G : Nx V) (u v : V) : Prop :=
  u ∈ G.nodes ∧ v ∈ G.nodes ∧ ((∀ x ∈ G.nodes, G.color x ≠ none) → G.color u = some false ∧ G.color v = some true) ∧ u ≠ v

/-- The pairs of the list are different as edges of an undirected graph. -/
def EdgesDistinct (es : List (V × V)) : Prop := (es.map fun e => s(e.1, e.2)).Nodup

/-- An undirected graph without loops, in which every edge connects the sides if there are any. -/
structure Nx.Simple (G : Nx V) : Prop where
  undirected : G.directed = false
  nodup : G.nodes.Nodup
  distinct : EdgesDistinct G.edges
  ends : ∀ e ∈ G.edges, G.Joinable e.1 e.2 ∨ G.Joinable e.2 e.1

/-- `m` different missing edges of `G`. -/
structure MissingEdges (G : Nx V) (m : Nat) (es : List (V × V)) : Prop where
  count : es.length = m
  distinct : EdgesDistinct es
  joinable : ∀ e ∈ es, G.Joinable e.1 e.2
  missing : ∀ e ∈ es, G.hasEdge e.1 e.2 = false

/-- What the random generator guarantees: `m` different positions of the list sampled; in the sparse case, pairs that could be edges. -/
structure DrawOK (G : Nx V) (ord : List V) (pos : List Nat) (draw : Nat → V × V) (m : Nat) : Prop where
  order : ord.Perm G.nodes
  nodup : pos.Nodup
  count : m ≤ (availableEdges G ord).length → pos.length = m
  range : ∀ i ∈ pos, i < (availableEdges G ord).length
  draws : 2 * (G.edges.length + m) < totalEdges G → ∀ i, G.Joinable (draw i).1 (draw i).2

/-! ### Lemmas -/

theorem labelled_iff {G : Nx V} : G.labelled = true ↔ ∀ x ∈ G.nodes, G.color x ≠ none := by
  simp [Nx.labelled, List.all_eq_true, Option.isSome_iff_ne_none]

/-- The pairs that can be edges. -/
def candEdges (G : Nx V) (ord : List V) : List (V × V) :=
  if G.labelled then (G.side false).flatMap fun u => (G.side true).map fun v => (u, v) else pairs ord

theorem availableEdges_eq (G : Nx V) (ord : List V) : availableEdges G ord = (candEdges G ord).filter fun e => !G.hasEdge e.1 e.2 := by
  unfold availableEdges candEdges; split <;> rfl

theorem pairs_spec : ∀ {l : List V}, l.Nodup → EdgesDistinct (pairs l) ∧ (∀ e ∈ pairs l, e.1 ∈ l ∧ e.2 ∈ l ∧ e.1 ≠ e.2) ∧
    (∀ u ∈ l, ∀ v ∈ l, u ≠ v → (u, v) ∈ pairs l ∨ (v, u) ∈ pairs l) ∧ (pairs l).length = l.length * (l.length - 1) / 2 := by
  intro l
  induction l with
  | nil => intro _; simp [pairs, EdgesDistinct]
  | cons x xs ih =>
    intro h
    obtain ⟨hx, hn⟩ := List.nodup_cons.1 h
    obtain ⟨i1, i2, i3, i4⟩ := ih hn
    refine ⟨?_, ?_, ?_, ?_⟩
    · unfold EdgesDistinct pairs
      rw [List.map_append, List.nodup_append]
      refine ⟨?_, i1, ?_⟩
      · rw [List.map_map]
        refine (List.nodup_map_iff_inj_on hn).2 ?_
        intro a _ b _ he
        rcases Sym2.eq_iff.1 he with ⟨_, h⟩ | ⟨h, h'⟩
        · exact h
        · exact h'.trans h
      · intro a ha b hb hab
        subst hab
        simp only [List.map_map, List.mem_map, Function.comp] at ha
        obtain ⟨y, hy, rfl⟩ := ha
        obtain ⟨e, he, he'⟩ := List.mem_map.1 hb
        have := i2 e he
        rcases Sym2.eq_iff.1 he' with ⟨h1, _⟩ | ⟨_, h1⟩
        · exact hx (h1 ▸ this.1)
        · exact hx (h1 ▸ this.2.1)
    · intro e he
      simp only [pairs, List.mem_append, List.mem_map] at he
      rcases he with ⟨y, hy, rfl⟩ | he
      · exact ⟨by simp, by simp [hy], fun hh => hx (by simp only at hh; rw [hh]; exact hy)⟩
      · have := i2 e he
        exact ⟨by simp [this.1], by simp [this.2.1], this.2.2⟩
    · intro u hu v hv huv
      simp only [pairs, List.mem_append, List.mem_map]
      rcases List.mem_cons.1 hu with rfl | hu'
      · rcases List.mem_cons.1 hv with rfl | hv
        · exact absurd rfl huv
        · exact .inl (.inl ⟨v, hv, rfl⟩)
      · rcases List.mem_cons.1 hv with hvx | hv
        · subst hvx; exact .inr (.inl ⟨u, hu', rfl⟩)
        · rcases i3 u hu' v hv huv with h | h
          · exact .inl (.inr h)
          · exact .inr (.inr h)
    · simp only [pairs, List.length_append, List.length_map, i4, List.length_cons]
      rw [Nat.add_sub_cancel]
      have : (xs.length + 1) * xs.length = xs.length * (xs.length - 1) + 2 * xs.length := by
        rcases xs.length with _ | n
        · rfl
        · simp only [Nat.add_sub_cancel]; ring
      rw [this]; omega

theorem mem_side {G : Nx V} {b : Bool} {v : V} : v ∈ G.side b ↔ v ∈ G.nodes ∧ G.color v = some b := by simp [Nx.side]

theorem cand_spec {G : Nx V} {ord : List V} (hn : G.nodes.Nodup) (ho : ord.Perm G.nodes) : EdgesDistinct (candEdges G ord) ∧
    (∀ e ∈ candEdges G ord, G.Joinable e.1 e.2) ∧ (∀ u v, G.Joinable u v → (u, v) ∈ candEdges G ord ∨ (v, u) ∈ candEdges G ord) ∧
    (candEdges G ord).length = totalEdges G := by
  unfold candEdges totalEdges
  by_cases hl : G.labelled
  · have hl' := labelled_iff.1 hl
    simp only [hl, if_true]
    have hj : ∀ u v, u ∈ G.side false → v ∈ G.side true → G.Joinable u v := by
      intro u v hu hv
      rw [mem_side] at hu hv
      exact ⟨hu.1, hv.1, fun _ => ⟨hu.2, hv.2⟩, fun h => by rw [h] at hu; rw [hu.2] at hv; simp at hv⟩
    refine ⟨?_, ?_, ?_, ?_⟩
    · unfold EdgesDistinct
      rw [List.nodup_map_iff_inj_on]
      · intro a ha b hb hab
        simp only [List.mem_flatMap, List.mem_map] at ha hb
        obtain ⟨u, hu, v, hv, rfl⟩ := ha
        obtain ⟨u', hu', v', hv', rfl⟩ := hb
        rcases Sym2.eq_iff.1 hab with ⟨h1, h2⟩ | ⟨h1, h2⟩
        · simp only at h1 h2; rw [h1, h2]
        · simp only at h1 h2
          rw [mem_side] at hu hv'
          rw [h1, hv'.2] at hu; simp at hu
      · exact (hn.filter _).product (hn.filter _)
    · intro e he
      simp only [List.mem_flatMap, List.mem_map] at he
      obtain ⟨u, hu, v, hv, rfl⟩ := he
      exact hj u v hu hv
    · intro u v h
      obtain ⟨h1, h2⟩ := h.2.2.1 hl'
      left
      simp only [List.mem_flatMap, List.mem_map]
      exact ⟨u, mem_side.2 ⟨h.1, h1⟩, v, mem_side.2 ⟨h.2.1, h2⟩, rfl⟩
    · simp [List.length_flatMap]
  · simp only [hl, Bool.false_eq_true, if_false]
    obtain ⟨h1, h2, h3, h4⟩ := pairs_spec (ho.nodup_iff.2 hn)
    refine ⟨h1, ?_, ?_, by rw [h4, ho.length_eq]⟩
    · intro e he
      have := h2 e he
      exact ⟨ho.mem_iff.1 this.1, ho.mem_iff.1 this.2.1, fun h => absurd (labelled_iff.2 h) hl, this.2.2⟩
    · intro u v h
      exact h3 u (ho.mem_iff.2 h.1) v (ho.mem_iff.2 h.2.1) h.2.2.2

theorem hasEdge_sym2 {G : Nx V} (hu : G.directed = false) {u v : V} : G.hasEdge u v = true ↔ s(u, v) ∈ G.edges.map fun e => s(e.1, e.2) := by
  simp only [Nx.hasEdge, hu, Bool.not_false, Bool.true_and, Bool.or_eq_true, decide_eq_true_eq, List.mem_map]
  constructor
  · rintro (h | h)
    · exact ⟨_, h, rfl⟩
    · exact ⟨_, h, Sym2.eq_swap⟩
  · rintro ⟨e, he, h⟩
    rcases Sym2.eq_iff.1 h with ⟨h1, h2⟩ | ⟨h1, h2⟩
    · left; rw [← h1, ← h2]; exact he
    · right; rw [← h1, ← h2]; exact he

theorem EdgesDistinct.filter {es : List (V × V)} (h : EdgesDistinct es) (p : V × V → Bool) : EdgesDistinct (es.filter p) :=
  List.Nodup.sublist (List.filter_sublist.map _) h

theorem count_available {G : Nx V} {ord : List V} (hG : G.Simple) (ho : ord.Perm G.nodes) :
    (availableEdges G ord).length + G.edges.length = totalEdges G := by
  obtain ⟨h1, h2, h3, h4⟩ := cand_spec hG.nodup ho
  rw [availableEdges_eq, ← h4, ← List.countP_eq_length_filter, Nat.add_comm]
  have : G.edges.length = (candEdges G ord).countP fun e => G.hasEdge e.1 e.2 := by
    rw [List.countP_eq_length_filter]
    have hp : (G.edges.map fun e => s(e.1, e.2)).Perm (((candEdges G ord).filter fun e => G.hasEdge e.1 e.2).map fun e => s(e.1, e.2)) := by
      refine (List.perm_ext_iff_of_nodup hG.distinct (h1.filter _)).2 ?_
      intro a
      constructor
      · intro ha
        obtain ⟨e, he, rfl⟩ := List.mem_map.1 ha
        have hh : G.hasEdge e.1 e.2 = true := (hasEdge_sym2 hG.undirected).2 ha
        have hh' : G.hasEdge e.2 e.1 = true := (hasEdge_sym2 hG.undirected).2 (by rw [Sym2.eq_swap]; exact ha)
        have : (e.1, e.2) ∈ candEdges G ord ∨ (e.2, e.1) ∈ candEdges G ord := by
          rcases hG.ends e he with h | h
          · exact h3 _ _ h
          · exact (h3 _ _ h).symm
        rcases this with h | h
        · exact List.mem_map.2 ⟨_, List.mem_filter.2 ⟨h, hh⟩, rfl⟩
        · exact List.mem_map.2 ⟨_, List.mem_filter.2 ⟨h, hh'⟩, Sym2.eq_swap⟩
      · intro ha
        obtain ⟨e, he, rfl⟩ := List.mem_map.1 ha
        exact (hasEdge_sym2 hG.undirected).1 (List.mem_filter.1 he).2
    simpa using hp.length_eq
  rw [this]
  rw [List.length_eq_countP_add_countP (fun e : V × V => G.hasEdge e.1 e.2)]
  congr 1
  exact List.countP_congr (by simp)

theorem available_spec {G : Nx V} {ord : List V} (hG : G.Simple) (ho : ord.Perm G.nodes) : EdgesDistinct (availableEdges G ord) ∧
    (∀ e ∈ availableEdges G ord, G.Joinable e.1 e.2 ∧ G.hasEdge e.1 e.2 = false) ∧
    (∀ e : V × V, G.Joinable e.1 e.2 → G.hasEdge e.1 e.2 = false → s(e.1, e.2) ∈ (availableEdges G ord).map fun e => s(e.1, e.2)) := by
  obtain ⟨h1, h2, h3, h4⟩ := cand_spec hG.nodup ho
  rw [availableEdges_eq]
  refine ⟨h1.filter _, ?_, ?_⟩
  · intro e he
    have := List.mem_filter.1 he
    exact ⟨h2 e this.1, by simpa using this.2⟩
  · intro e hj hm
    have hm' : G.hasEdge e.2 e.1 = false := by
      rw [Bool.eq_false_iff] at hm ⊢
      intro h; apply hm
      rw [hasEdge_sym2 hG.undirected] at h ⊢
      rw [Sym2.eq_swap]; exact h
    rcases h3 _ _ hj with h | h
    · exact List.mem_map.2 ⟨_, List.mem_filter.2 ⟨h, by simp [hm]⟩, rfl⟩
    · exact List.mem_map.2 ⟨_, List.mem_filter.2 ⟨h, by simp [hm']⟩, Sym2.eq_swap⟩

theorem missing_le {G : Nx V} {ord : List V} (hG : G.Simple) (ho : ord.Perm G.nodes) {m : Nat} {es : List (V × V)} (h : MissingEdges G m es) :
    m ≤ (availableEdges G ord).length := by
  have hs : (es.map fun e => s(e.1, e.2)) ⊆ (availableEdges G ord).map fun e => s(e.1, e.2) := by
    intro a ha
    obtain ⟨e, he, rfl⟩ := List.mem_map.1 ha
    exact (available_spec hG ho).2.2 e (h.joinable e he) (h.missing e he)
  have := (h.distinct.subperm hs).length_le
  simpa [h.count] using this

theorem exists_missing {G : Nx V} {ord : List V} (hG : G.Simple) (ho : ord.Perm G.nodes) (m : Nat) :
    (∃ es, MissingEdges G m es) ↔ m ≤ (availableEdges G ord).length := by
  constructor
  · rintro ⟨es, h⟩; exact missing_le hG ho h
  · intro h
    obtain ⟨a1, a2, _⟩ := available_spec hG ho
    refine ⟨(availableEdges G ord).take m, by simp [h], List.Nodup.sublist ((List.take_sublist _ _).map _) a1, ?_, ?_⟩
    · exact fun e he => (a2 e (List.mem_of_mem_take he)).1
    · exact fun e he => (a2 e (List.mem_of_mem_take he)).2

/-- The sparse loop: the edges found are different missing edges, at most `m`. -/
theorem sparse_inv {G : Nx V} (hG : G.Simple) (m : Nat) : ∀ (ds S : List (V × V)), (∀ e ∈ ds, G.Joinable e.1 e.2) → MissingEdges G S.length S → S.length ≤ m →
    MissingEdges G (ds.foldl (sparseTurn G m) S).length (ds.foldl (sparseTurn G m) S) ∧ (ds.foldl (sparseTurn G m) S).length ≤ m := by
  intro ds
  induction ds with
  | nil => intro S _ h1 h2; exact ⟨h1, h2⟩
  | cons d ds ih =>
    intro S hd h1 h2
    rw [List.foldl_cons]
    have key : MissingEdges G (sparseTurn G m S d).length (sparseTurn G m S d) ∧ (sparseTurn G m S d).length ≤ m := by
      unfold sparseTurn
      split
      · exact ⟨h1, h2⟩
      · rename_i hlt
        split
        · rename_i hc
          refine ⟨⟨rfl, ?_, ?_, ?_⟩, by simp; omega⟩
          · unfold EdgesDistinct
            rw [List.map_append, List.nodup_append]
            refine ⟨h1.distinct, by simp, ?_⟩
            intro a ha b hb hab
            subst hab
            simp only [List.map_cons, List.map_nil, List.mem_singleton] at hb
            subst hb
            obtain ⟨e, he, h⟩ := List.mem_map.1 ha
            rcases Sym2.eq_iff.1 h with ⟨e1, e2⟩ | ⟨e1, e2⟩
            · exact hc.1 (by rw [show d = e from Prod.ext e1.symm e2.symm]; exact he)
            · exact hc.2.1 (by rw [← e1, ← e2]; exact he)
          · intro e he
            rcases List.mem_append.1 he with he | he
            · exact h1.joinable e he
            · rw [List.mem_singleton.1 he]; exact hd d (by simp)
          · intro e he
            rcases List.mem_append.1 he with he | he
            · exact h1.missing e he
            · rw [List.mem_singleton.1 he]; exact hc.2.2
        · exact ⟨h1, h2⟩
    exact ih _ (fun e he => hd e (by simp [he])) key.1 key.2

theorem pick_positions {G : Nx V} {l : List (V × V)} {pos : List Nat} (hl : EdgesDistinct l) (hj : ∀ e ∈ l, G.Joinable e.1 e.2 ∧ G.hasEdge e.1 e.2 = false)
    (hn : pos.Nodup) (hr : ∀ i ∈ pos, i < l.length) : MissingEdges G pos.length (pos.filterMap fun i => l[i]?) := by
  have hmap : pos.filterMap (fun i => l[i]?) = pos.pmap (fun i hi => l[i]'hi) hr := by
    clear hn
    induction pos with
    | nil => rfl
    | cons i pos ih =>
      have hi := hr i (by simp)
      rw [List.filterMap_cons, List.getElem?_eq_getElem hi, List.pmap_cons]
      exact congrArg _ (ih (fun j hj => hr j (by simp [hj])))
  have hm : ∀ e ∈ pos.filterMap (fun i => l[i]?), e ∈ l := by
    intro e he
    obtain ⟨i, _, hi⟩ := List.mem_filterMap.1 he
    exact List.mem_of_getElem? hi
  refine ⟨by rw [hmap]; simp, ?_, fun e he => (hj e (hm e he)).1, fun e he => (hj e (hm e he)).2⟩
  unfold EdgesDistinct
  rw [hmap, List.map_pmap]
  refine hn.pmap ?_
  intro i hi j hj' h
  have := (List.Nodup.getElem_inj_iff hl (i := i) (j := j) (hi := by simpa using hi) (hj := by simpa using hj')).1 (by simpa using h)
  exact this

/-! ### C75 -/

/-- **C75, refusals.** `ValueError` exactly when a negative number of edges or more edges than missing ones are asked for. -/
theorem C75_sample_refused {G : Nx V} (hG : G.Simple) {ord : List V} (ho : ord.Perm G.nodes) (pos : List Nat) (draw : Nat → V × V) (m : Int) :
    sampleMissing G ord pos draw m = raise .valueError ↔ m < 0 ∨ ¬ ∃ es, MissingEdges G m.toNat es := by
  rw [exists_missing hG ho]
  have hc := count_available hG ho
  unfold sampleMissing
  have hp : ∀ x : List (V × V), (pure x : M (List (V × V))) ≠ raise .valueError := fun x h => by injection h with h; injection h
  have hr : (raise .runtimeError : M (List (V × V))) ≠ raise .valueError := fun h => by injection h with h; injection h with h; injection h
  split
  · simp_all
  · split
    · simp only [true_iff]; right; omega
    · have h1 : m.toNat ≤ (availableEdges G ord).length := by omega
      have h2 : ¬ (m < 0 ∨ ¬ m.toNat ≤ (availableEdges G ord).length) := by omega
      simp only [h2, iff_false]
      split
      · exact hp _
      · split
        · exact hp _
        · exact hr

/-- **C75, sampling.** If there are `m` missing edges then, whatever is drawn, the result is `m` different missing edges, or `RuntimeError`; the
latter only if the edges and the `m` new ones are less than half of the possible ones. -/
theorem C75_sample {G : Nx V} (hG : G.Simple) {ord : List V} {pos : List Nat} {draw : Nat → V × V} {m : Nat} (hd : DrawOK G ord pos draw m)
    (hm : ∃ es, MissingEdges G m es) :
    (∃ es, sampleMissing G ord pos draw m = pure es ∧ MissingEdges G m es) ∨
    (sampleMissing G ord pos draw m = raise .runtimeError ∧ ∃ ps, EdgesDistinct ps ∧ (∀ e ∈ ps, G.Joinable e.1 e.2) ∧ 2 * (G.edges.length + m) < ps.length) := by
  rw [exists_missing hG hd.order] at hm
  have hc := count_available hG hd.order
  unfold sampleMissing
  rw [if_neg (by omega), if_neg (by omega)]
  simp only [Int.toNat_natCast]
  split
  · left
    refine ⟨_, rfl, ?_⟩
    have a := available_spec hG hd.order
    have := pick_positions a.1 a.2.1 hd.nodup hd.range
    rwa [hd.count hm] at this
  · rename_i hs
    have hs' : 2 * (G.edges.length + m) < totalEdges G := by omega
    have inv := sparse_inv hG m ((List.range (100 * m)).map draw) [] (by
      intro e he
      obtain ⟨i, _, rfl⟩ := List.mem_map.1 he
      exact hd.draws hs' i) ⟨rfl, by simp [EdgesDistinct], by simp, by simp⟩ (by simp)
    split
    · rename_i hl
      left
      refine ⟨_, rfl, ?_⟩
      have : (((List.range (100 * m)).map draw).foldl (sparseTurn G m) []).length = m := by omega
      have h := inv.1
      rwa [this] at h
    · right
      obtain ⟨c1, c2, _, c4⟩ := cand_spec hG.nodup hd.order
      exact ⟨rfl, _, c1, c2, by rw [c4]; exact hs'⟩

theorem sparse_all {G : Nx V} {m : Nat} : ∀ (es S : List (V × V)), EdgesDistinct (S ++ es) → (∀ e ∈ es, G.hasEdge e.1 e.2 = false) → S.length + es.length ≤ m →
    es.foldl (sparseTurn G m) S = S ++ es := by
  intro es
  induction es with
  | nil => intro S _ _ _; simp
  | cons e es ih =>
    intro S hd hm hl
    rw [List.length_cons] at hl
    have hd' := hd
    unfold EdgesDistinct at hd'
    rw [List.map_append, List.nodup_append] at hd'
    have hnot : s(e.1, e.2) ∉ S.map fun e => s(e.1, e.2) := fun h => hd'.2.2 _ h _ (by simp) rfl
    have : sparseTurn G m S e = S ++ [e] := by
      unfold sparseTurn
      rw [if_neg (by omega), if_pos]
      exact ⟨fun h => hnot (List.mem_map_of_mem (f := fun e => s(e.1, e.2)) h), fun h => hnot (by
        rw [Sym2.eq_swap]; exact List.mem_map_of_mem (f := fun e => s(e.1, e.2)) h), hm e (by simp)⟩
    rw [List.foldl_cons, this, ih (S ++ [e]) (by simpa using hd) (fun e' he' => hm e' (by simp [he'])) (by simp; omega)]
    simp

theorem sparse_full {G : Nx V} {m : Nat} {S : List (V × V)} (h : m ≤ S.length) (ds : List (V × V)) : ds.foldl (sparseTurn G m) S = S := by
  induction ds with
  | nil => rfl
  | cons d ds ih => rw [List.foldl_cons, show sparseTurn G m S d = S by unfold sparseTurn; rw [if_pos h], ih]

/-- **C75, sampling: every choice.** Any `m` different missing edges are the result for some draws. -/
theorem C75_sample_all [Inhabited V] {G : Nx V} (hG : G.Simple) {m : Nat} {es : List (V × V)} (hes : MissingEdges G m es) :
    ∃ pos draw, DrawOK G G.nodes pos draw m ∧ ∃ es', sampleMissing G G.nodes pos draw m = pure es' ∧
      (es'.map fun e => s(e.1, e.2)) = es.map fun e => s(e.1, e.2) := by
  have ho := List.Perm.refl G.nodes
  have hle := missing_le hG ho hes
  have hc := count_available hG ho
  obtain ⟨a1, a2, a3⟩ := available_spec hG ho
  obtain ⟨c1, c2, _, c4⟩ := cand_spec hG.nodup ho
  set A := availableEdges G G.nodes with hA
  have hin : ∀ e ∈ es, s(e.1, e.2) ∈ A.map fun e => s(e.1, e.2) := fun e he => a3 e (hes.joinable e he) (hes.missing e he)
  have hlt : ∀ e ∈ es, (A.map fun e => s(e.1, e.2)).idxOf s(e.1, e.2) < A.length := by
    intro e he
    have := List.idxOf_lt_length_of_mem (hin e he)
    simpa using this
  refine ⟨es.map fun e => (A.map fun e => s(e.1, e.2)).idxOf s(e.1, e.2), fun i => es.getD i ((candEdges G G.nodes).headD default), ⟨ho, ?_, ?_, ?_, ?_⟩, ?_⟩
  · have : (es.map fun e => (A.map fun e => s(e.1, e.2)).idxOf s(e.1, e.2)) =
        (es.map fun e => s(e.1, e.2)).map fun x => (A.map fun e => s(e.1, e.2)).idxOf x := by rw [List.map_map]; rfl
    rw [this]
    refine (List.nodup_map_iff_inj_on hes.distinct).2 ?_
    intro x hx y hy hxy
    obtain ⟨e, he, rfl⟩ := List.mem_map.1 hx
    obtain ⟨e', he', rfl⟩ := List.mem_map.1 hy
    exact (List.idxOf_inj (hin e he)).1 hxy
  · intro _; rw [List.length_map, hes.count]
  · intro i hi
    obtain ⟨e, he, rfl⟩ := List.mem_map.1 hi
    exact hlt e he
  · intro hsp i
    by_cases hi : i < es.length
    · rw [List.getD_eq_getElem _ _ hi]; exact hes.joinable _ (List.getElem_mem _)
    · rw [List.getD_eq_default _ _ (by omega)]
      cases hcd : candEdges G G.nodes with
      | nil => rw [hcd] at c4; simp only [List.length_nil] at c4; omega
      | cons c cs => exact c2 c (by rw [hcd]; simp)
  · unfold sampleMissing
    rw [if_neg (by omega), if_neg (by omega)]
    simp only [Int.toNat_natCast]
    by_cases hdense : 2 * ((G.edges.length : Int) + m) ≥ totalEdges G
    · rw [if_pos hdense, if_pos hle]
      refine ⟨_, rfl, ?_⟩
      clear hle hes
      rw [← hA]
      induction es with
      | nil => rfl
      | cons e es ih =>
        have hi := hlt e (by simp)
        rw [List.map_cons, List.filterMap_cons, List.getElem?_eq_getElem hi]
        dsimp only
        rw [List.map_cons, List.map_cons, ih (fun e' he' => hin e' (by simp [he'])) (fun e' he' => hlt e' (by simp [he']))]
        congr 1
        have := List.getElem_idxOf (List.idxOf_lt_length_of_mem (hin e (by simp)))
        rw [List.getElem_map] at this
        exact this
    · rw [if_neg hdense]
      have hsplit : 100 * m = m + 99 * m := by omega
      have hfirst : ((List.range (100 * m)).map fun i => es.getD i ((candEdges G G.nodes).headD default)) =
          es ++ ((List.range (99 * m)).map (m + ·)).map fun i => es.getD i ((candEdges G G.nodes).headD default) := by
        rw [hsplit, List.range_add, List.map_append]
        congr 1
        apply List.ext_getElem
        · simp [hes.count]
        · intro i h1 h2
          simp only [List.getElem_map, List.getElem_range]
          exact List.getD_eq_getElem _ _ h2
      rw [hfirst, List.foldl_append, sparse_all es [] (by simpa using hes.distinct) hes.missing (by simp [hes.count]), List.nil_append,
        sparse_full (by rw [hes.count])]
      rw [if_pos (by rw [hes.count])]
      exact ⟨es, rfl, rfl⟩

theorem addEdges_new {G : Nx V} (hu : G.directed = false) : ∀ {es : List (V × V)}, (∀ e ∈ es, e.1 ∈ G.nodes ∧ e.2 ∈ G.nodes) → EdgesDistinct es →
    (∀ e ∈ es, G.hasEdge e.1 e.2 = false) → (G.addEdges es).edges = G.edges ++ es := by
  intro es
  induction es generalizing G with
  | nil => intro _ _ _; simp [Nx.addEdges]
  | cons e es ih =>
    intro h1 h2 h3
    have hadd : G.addEdge e.1 e.2 = { G with edges := G.edges ++ [e] } := by
      rw [addEdge_mem (h1 e (by simp)).1 (h1 e (by simp)).2, if_neg (by simp [h3 e (by simp)])]
    unfold EdgesDistinct at h2
    rw [List.map_cons, List.nodup_cons] at h2
    have := ih (G := G.addEdge e.1 e.2) (by rw [hadd]; exact hu) (by rw [hadd]; exact fun e' he' => h1 e' (by simp [he'])) h2.2 (by
      intro e' he'
      rw [Bool.eq_false_iff]
      intro h
      rw [hasEdge_sym2 (by rw [hadd]; exact hu), hadd] at h
      simp only [List.map_append, List.mem_append, List.map_cons, List.map_nil, List.mem_singleton] at h
      rcases h with h | h
      · have := h3 e' (by simp [he'])
        rw [Bool.eq_false_iff] at this
        exact this ((hasEdge_sym2 hu).2 h)
      · exact h2.1 (by rw [← h]; exact List.mem_map_of_mem (f := fun e => s(e.1, e.2)) he'))
    show ((G.addEdge e.1 e.2).addEdges es).edges = _
    rw [this, hadd]
    simp

/-- **C75, `--addedges k`.** If `k` edges are missing, the result (unless `RuntimeError`) has the same vertices and sides, all old edges and exactly
`k` more; otherwise `ValueError`. -/
theorem C75_add_edges {G : Nx V} (hG : G.Simple) {ord : List V} {pos : List Nat} {draw : Nat → V × V} {k : Nat} (hd : DrawOK G ord pos draw k) :
    (addRandomEdges G ord pos draw k = raise .valueError ↔ ¬ ∃ es, MissingEdges G k es) ∧
    ((∃ es, MissingEdges G k es) → addRandomEdges G ord pos draw k = raise .runtimeError ∨
      ∃ H, addRandomEdges G ord pos draw k = pure H ∧ H.Simple ∧ H.nodes = G.nodes ∧ H.color = G.color ∧ H.edges.length = G.edges.length + k ∧
        ∀ u v, G.hasEdge u v = true → H.hasEdge u v = true) := by
  have key : (∃ es, MissingEdges G k es) → addRandomEdges G ord pos draw k = raise .runtimeError ∨
      ∃ H, addRandomEdges G ord pos draw k = pure H ∧ H.Simple ∧ H.nodes = G.nodes ∧ H.color = G.color ∧ H.edges.length = G.edges.length + k ∧
        ∀ u v, G.hasEdge u v = true → H.hasEdge u v = true := by
    intro hm
    unfold addRandomEdges
    rcases C75_sample hG hd hm with ⟨es, he, hes⟩ | ⟨he, _⟩
    · right
      rw [he, M.pure_bind]
      have hends : ∀ e ∈ es, e.1 ∈ G.nodes ∧ e.2 ∈ G.nodes := fun e h => ⟨(hes.joinable e h).1, (hes.joinable e h).2.1⟩
      have hs := addEdges_same hends
      have hn := addEdges_new hG.undirected hends hes.distinct hes.missing
      have hjo : ∀ u v, (G.addEdges es).Joinable u v ↔ G.Joinable u v := by intro u v; unfold Nx.Joinable; rw [hs.nodes, hs.color]
      refine ⟨_, rfl, ⟨by rw [hs.directed]; exact hG.undirected, by rw [hs.nodes]; exact hG.nodup, ?_, ?_⟩, hs.nodes, hs.color, ?_, ?_⟩
      · rw [hn]
        unfold EdgesDistinct
        rw [List.map_append, List.nodup_append]
        refine ⟨hG.distinct, hes.distinct, ?_⟩
        intro a ha b hb hab
        subst hab
        obtain ⟨e, he, rfl⟩ := List.mem_map.1 hb
        have := (hasEdge_sym2 hG.undirected).2 ha
        rw [hes.missing e he] at this
        simp at this
      · intro e he
        rw [hjo, hjo]
        rw [hn] at he
        rcases List.mem_append.1 he with he | he
        · exact hG.ends e he
        · exact .inl (hes.joinable e he)
      · rw [hn, List.length_append, hes.count]
      · intro u v h
        exact ((gext_addEdges G es).edges u v).2 (.inl h)
    · left
      rw [he, M.raise_bind]
  refine ⟨?_, key⟩
  constructor
  · intro h hm
    rcases key hm with h' | ⟨H, h', _⟩
    · rw [h'] at h; injection h with h; injection h with h; injection h
    · rw [h'] at h; injection h with h; injection h
  · intro h
    unfold addRandomEdges
    rw [(C75_sample_refused hG hd.order pos draw k).2 (.inr (by simpa using h)), M.raise_bind]

/-- **C75, `--plantclique k`.** More vertices than there are: `ValueError`.  Otherwise the chosen vertices become pairwise joined, nothing else
changes (`k = 0, 1` change nothing at all). -/
theorem C75_plant_clique {G : Nx V} (hG : G.Simple) (clique : List V) (k : Nat) :
    (1 < k → G.nodes.length < k → plantClique G clique k = raise .valueError) ∧
    (clique.Nodup → clique.length = k → (∀ v ∈ clique, v ∈ G.nodes) →
      ∃ H, plantClique G clique k = pure H ∧ H.nodes = G.nodes ∧ H.color = G.color ∧ H.directed = false ∧
        ∀ u v, H.hasEdge u v = true ↔ G.hasEdge u v = true ∨ (u ∈ clique ∧ v ∈ clique ∧ u ≠ v)) := by
  constructor
  · intro h1 h2
    unfold plantClique
    rw [if_pos h1, if_pos h2]
  · intro hn hl hm
    have hle : k ≤ G.nodes.length := by rw [← hl]; exact (hn.subperm hm).length_le
    obtain ⟨p1, p2, p3, p4⟩ := pairs_spec hn
    unfold plantClique
    by_cases hk : k > 1
    · rw [if_pos hk, if_neg (by omega)]
      have hs := addEdges_same (G := G) (es := pairs clique) (fun e he => ⟨hm _ (p2 e he).1, hm _ (p2 e he).2.1⟩)
      refine ⟨_, rfl, hs.nodes, hs.color, by rw [hs.directed]; exact hG.undirected, ?_⟩
      intro u v
      rw [(gext_addEdges G (pairs clique)).edges u v]
      constructor
      · rintro (h | h | ⟨_, h⟩)
        · exact .inl h
        · exact .inr (p2 _ h)
        · have := p2 _ h; exact .inr ⟨this.2.1, this.1, fun e => this.2.2 e.symm⟩
      · rintro (h | ⟨h1, h2, h3⟩)
        · exact .inl h
        · rcases p3 u h1 v h2 h3 with h | h
          · exact .inr (.inl h)
          · exact .inr (.inr ⟨hG.undirected, h⟩)
    · rw [if_neg hk]
      refine ⟨G, rfl, rfl, rfl, hG.undirected, ?_⟩
      intro u v
      constructor
      · exact .inl
      · rintro (h | ⟨h1, h2, h3⟩)
        · exact h
        · match clique, hl, h1, h2 with
          | [], _, h1, _ => simp at h1
          | [a], _, h1, h2 => simp at h1 h2; exact absurd (h1.trans h2.symm) h3
          | a :: b :: l, hl, _, _ => simp at hl; omega

/-- **C75, `--plantbiclique l r`.** Larger than a side: `ValueError`.  Otherwise the chosen left vertices are joined to the chosen right ones, nothing
else changes. -/
theorem C75_plant_biclique {G : Nx V} (hG : G.Simple) (hlab : ∀ x ∈ G.nodes, G.color x ≠ none) (left right : List V) (l r : Nat) :
    (((G.nodes.filter fun v => G.color v = some false).length < l ∨ (G.nodes.filter fun v => G.color v = some true).length < r) →
      plantBiclique G left right l r = raise .valueError) ∧
    (left.Nodup → left.length = l → (∀ v ∈ left, v ∈ G.nodes ∧ G.color v = some false) →
     right.Nodup → right.length = r → (∀ v ∈ right, v ∈ G.nodes ∧ G.color v = some true) →
      ∃ H, plantBiclique G left right l r = pure H ∧ H.nodes = G.nodes ∧ H.color = G.color ∧ H.directed = false ∧
        ∀ u v, H.hasEdge u v = true ↔ G.hasEdge u v = true ∨ (u ∈ left ∧ v ∈ right) ∨ (u ∈ right ∧ v ∈ left)) := by
  unfold plantBiclique
  have hl' := labelled_iff.2 hlab
  rw [if_neg (by simp [hl'])]
  constructor
  · intro h
    rw [if_pos]
    exact h
  · intro n1 l1 m1 n2 l2 m2
    have hle1 : l ≤ (G.side false).length := by rw [← l1]; exact (n1.subperm fun v hv => mem_side.2 (m1 v hv)).length_le
    have hle2 : r ≤ (G.side true).length := by rw [← l2]; exact (n2.subperm fun v hv => mem_side.2 (m2 v hv)).length_le
    rw [if_neg (by omega)]
    have hmem : ∀ u v, (u, v) ∈ (left.flatMap fun u => right.map fun v => (u, v)) ↔ u ∈ left ∧ v ∈ right := by
      intro u v
      simp only [List.mem_flatMap, List.mem_map, Prod.mk.injEq]
      constructor
      · rintro ⟨a, ha, b, hb, rfl, rfl⟩; exact ⟨ha, hb⟩
      · rintro ⟨ha, hb⟩; exact ⟨u, ha, v, hb, rfl, rfl⟩
    have hs := addEdges_same (G := G) (es := left.flatMap fun u => right.map fun v => (u, v)) (fun e he => by
      have := (hmem e.1 e.2).1 he; exact ⟨(m1 _ this.1).1, (m2 _ this.2).1⟩)
    refine ⟨_, rfl, hs.nodes, hs.color, by rw [hs.directed]; exact hG.undirected, ?_⟩
    intro u v
    rw [(gext_addEdges G _).edges u v, hmem, hmem]
    simp only [hG.undirected, true_and]
    rw [and_comm (a := v ∈ left)]

end

/-! ### Cases -/

/-- The path 1-2-3 with vertex 4 alone. -/
def pathPlus : Nx Nat := ⟨false, [], [1, 2, 3, 4], [(1, 2), (2, 3)], fun _ => none, false⟩

theorem pathPlus_simple : pathPlus.Simple := by
  refine ⟨rfl, by decide, by unfold EdgesDistinct; decide, ?_⟩
  intro e he
  left
  simp only [pathPlus, List.mem_cons, List.not_mem_nil, or_false] at he
  have hne : ¬ ∀ x ∈ pathPlus.nodes, pathPlus.color x ≠ none := fun h => h 1 (by decide) rfl
  rcases he with rfl | rfl
  · exact ⟨by decide, by decide, fun h => absurd h hne, by decide⟩
  · exact ⟨by decide, by decide, fun h => absurd h hne, by decide⟩

/-- Three of the four missing edges of the graph above. -/
example : sampleMissing pathPlus [1, 2, 3, 4] [3, 0, 1] (fun _ => (1, 3)) 3 = pure [(3, 4), (1, 3), (1, 4)] := rfl

/-- Five are refused. -/
example : sampleMissing pathPlus [1, 2, 3, 4] [] (fun _ => (1, 3)) 5 = raise .valueError := rfl

/-- In the sparse case `RuntimeError` is possible: always the same pair is drawn. -/
theorem C75_runtime_error : ∃ G : Nx Nat, G.Simple ∧ DrawOK G G.nodes [0, 1] (fun _ => (0, 1)) 2 ∧
    sampleMissing G G.nodes [0, 1] (fun _ => (0, 1)) 2 = raise .runtimeError := by
  have hne : ¬ ∀ x ∈ [0, 1, 2, 3], (none : Option Bool) ≠ none := fun h => h 0 (by decide) rfl
  refine ⟨⟨false, [], [0, 1, 2, 3], [], fun _ => none, false⟩, ⟨rfl, by decide, by unfold EdgesDistinct; decide, by simp⟩, ⟨List.Perm.refl _, by decide, by decide, by decide, ?_⟩, ?_⟩
  · intro _ _
    exact ⟨by simp, by simp, fun h => absurd h hne, by simp⟩
  · have stuck : ∀ k, (List.replicate k ((0, 1) : Nat × Nat)).foldl (sparseTurn (⟨false, [], [0, 1, 2, 3], [], fun _ => none, false⟩ : Nx Nat) 2) [(0, 1)] = [(0, 1)] := by
      intro k
      induction k with
      | zero => rfl
      | succ k ih => rw [List.replicate_succ, List.foldl_cons]; exact ih
    have hfold : ((List.range (100 * 2)).map (fun _ => ((0, 1) : Nat × Nat))).foldl (sparseTurn (⟨false, [], [0, 1, 2, 3], [], fun _ => none, false⟩ : Nx Nat) 2) [] = [(0, 1)] := by
      rw [List.map_const', List.length_range, show 100 * 2 = 199 + 1 from rfl, List.replicate_succ, List.foldl_cons]
      exact stuck 199
    unfold sampleMissing
    rw [if_neg (by decide), if_neg (by decide), if_neg (by decide)]
    show (if (List.length (((List.range (100 * 2)).map (fun _ => ((0, 1) : Nat × Nat))).foldl (sparseTurn (⟨false, [], [0, 1, 2, 3], [], fun _ => none, false⟩ : Nx Nat) 2) []) ≥ 2) then _ else _) = _
    rw [hfold, if_neg (by decide)]

/-- **C75, graphs with loops.** The number of missing edges is computed wrongly: two vertices, one with a loop, could be joined, but it is refused. -/
theorem C75_loop_refuted : sampleMissing (⟨false, [], [1, 2], [(1, 1)], fun _ => none, false⟩ : Nx Nat) [1, 2] [0] (fun _ => (1, 2)) 1 = raise .valueError ∧
    (⟨false, [], [1, 2], [(1, 1)], fun _ => none, false⟩ : Nx Nat).hasEdge 1 2 = false := by
  constructor <;> rfl

end NDP.Cnfgen
