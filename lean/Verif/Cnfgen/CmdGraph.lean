import Verif.Cnfgen.AddEdges
import Verif.Cnfgen.Subgraph
import Verif.Lib.Sort
/-
  How the sub-commands of `cnfgen` obtain a simple graph: `SimpleGraphHelper.obtain_graph` (`cmdline.py` 434-507).
  Paths below are relative to `software/cnfgen/cnfformula`.
-/
namespace NDP.Cnfgen
open NDP

/-! ### Model -/

/-- The options of `cmdline.py` 376-410 that say which graph to take.  The random graphs are what `networkx.random_regular_graph`,
`gnp_random_graph` and `gnm_random_graph` return.  `kthlist` is the standard input read with `--graphformat kthlist`.  Not modelled: `--grid` and
`--torus` (the vertices are tuples), the other formats. -/
inductive GraphSource where
  | gnd (n d : Nat) (G : Nx Int)
  | gnp (n : Nat) (G : Nx Int)
  | gnm (n m : Nat) (G : Nx Int)
  | complete (n : Nat)
  | empty (n : Nat)
  | kthlist (text : Str)

/-- `0, …, n-1`: the vertices of the graphs of networkx. -/
def intsBelow (n : Nat) : List Int := (List.range n).map Int.ofNat

/-- `cmdline.py` 441-482.  `ValueError` of the reader is caught there and ends in `exit(-1)`; for the other errors `cnfgen.py` 217-222 does the like, so
both are the same error here. -/
def GraphSource.get : GraphSource → M (Nx Int)
  | .gnd n d G => if n * d % 2 = 1 then raise .valueError else pure G
  | .gnp _ G => pure G
  | .gnm _ _ G => pure G
  | .complete n => pure { directed := false, nodes := intsBelow n, edges := pairs (intsBelow n) }
  | .empty n => pure { directed := false, nodes := intsBelow n }
  | .kthlist text => readKth .simple text

/-- The source and the modifications (`cmdline.py` 412-418), with the random choices they need. -/
structure GraphArgs where
  source : GraphSource
  plantclique : Option Nat := none
  clique : List Int := []
  addedges : Option Nat := none
  ord : List Int := []
  pos : List Nat := []
  draw : Nat → Int × Int := fun _ => (0, 0)

/-- `--plantclique`. -/
def GraphArgs.planted (a : GraphArgs) : M (Nx Int) := do
  let G ← a.source.get
  match a.plantclique with
  | none => pure G
  | some k => plantClique G a.clique k

/-- `cmdline.py` 434-507 (`obtain_graph`); `--savegraph` is not given. -/
def obtainGraph (a : GraphArgs) : M (Nx Int) := do
  let G ← a.planted
  match a.addedges with
  | none => pure G
  | some k => addRandomEdges G a.ord a.pos a.draw k

/-- The graph as the formulas see it: `enumerate_vertices` (`graphs.py` 433-446) and `G.edges()`. -/
def Nx.toGraph (G : Nx Int) : Graph :=
  ⟨isort (fun a b => decide (a < b)) (G.nodes.map Int.toNat), G.edges.map fun e => (e.1.toNat, e.2.toNat)⟩

/-! ### Specification -/

/-- A graph on `0, …, n-1` as networkx returns it. -/
structure NxGraph (n : Nat) (G : Nx Int) : Prop where
  undirected : G.directed = false
  nodes : G.nodes.Perm (intsBelow n)
  distinct : EdgesDistinct G.edges
  ends : ∀ e ∈ G.edges, e.1 ∈ G.nodes ∧ e.2 ∈ G.nodes ∧ e.1 ≠ e.2
  plain : ∀ v, G.color v = none

/-- The vertices and the edges the source stands for. -/
def GraphSource.Describes : GraphSource → List Nat → (Nat → Nat → Prop) → Prop
  | .gnd n d G, vs, E => n * d % 2 = 0 ∧ vs = List.range n ∧ ∀ u v : Nat, E u v ↔ G.hasEdge u v = true
  | .gnp n G, vs, E => vs = List.range n ∧ ∀ u v : Nat, E u v ↔ G.hasEdge u v = true
  | .gnm n _ G, vs, E => vs = List.range n ∧ ∀ u v : Nat, E u v ↔ G.hasEdge u v = true
  | .complete n, vs, E => vs = List.range n ∧ ∀ u v, E u v ↔ u < n ∧ v < n ∧ u ≠ v
  | .empty n, vs, E => vs = List.range n ∧ ∀ u v, ¬ E u v
  | .kthlist text, vs, E => ∃ n adj, KthText text n adj ∧ vs = oneTo n ∧ ∀ u v : Nat, E u v ↔ Listed adj u v ∨ Listed adj v u

/-- What networkx promises of its random graphs; and a text must not say that a vertex is its own neighbour. -/
def GraphSource.Legal : GraphSource → Prop
  | .gnd n _ G => NxGraph n G
  | .gnp n G => NxGraph n G
  | .gnm n _ G => NxGraph n G
  | .kthlist text => ∀ n adj, KthText text n adj → ∀ v, ¬ Listed adj v v
  | _ => True

/-- What the random choices satisfy: `random.sample(G.nodes(), k)`, and those of `sample_missing_edges`. -/
structure GraphArgs.Legal (a : GraphArgs) : Prop where
  source : a.source.Legal
  clique : ∀ k, a.plantclique = some k → 1 < k → ∀ G, a.source.get = pure G → k ≤ G.nodes.length → a.clique.Nodup ∧ a.clique.length = k ∧ ∀ v ∈ a.clique, v ∈ G.nodes
  edges : ∀ k, a.addedges = some k → ∀ G, a.planted = pure G → DrawOK G a.ord a.pos a.draw k

/-- `g` is a graph as ordered: the vertices of the source; its edges and a clique on the vertices chosen, if there is to be one (`h`); and as many more edges
as there are to be. -/
def GraphArgs.Gives (a : GraphArgs) (g : Graph) : Prop :=
  ∃ (vs : List Nat) (E : Nat → Nat → Prop) (h : Graph), a.source.Describes vs E ∧ h.Wf ∧ g.Wf ∧ h.verts = vs ∧ g.verts = vs ∧
    (∀ u v, h.hasEdge u v = true ↔ E u v ∨ ((∃ k, a.plantclique = some k ∧ 1 < k) ∧ (u : Int) ∈ a.clique ∧ (v : Int) ∈ a.clique ∧ u ≠ v)) ∧
    (a.addedges = none → g = h) ∧
    ∀ k, a.addedges = some k → (∀ u v, h.hasEdge u v = true → g.hasEdge u v = true) ∧ g.edges.length = h.edges.length + k

/-- The order cannot be carried out: there is no such regular graph, the text is not a graph, the clique is too large, or there are not enough pairs without an
edge. -/
def GraphArgs.Refused (a : GraphArgs) : Prop :=
  (∀ vs E, ¬ a.source.Describes vs E) ∨ ∃ vs E, a.source.Describes vs E ∧
    ((∃ k, a.plantclique = some k ∧ 1 < k ∧ vs.length < k) ∨
     ∃ k, a.addedges = some k ∧ ∃ h : Graph, h.Wf ∧ h.verts = vs ∧
      (∀ u v, h.hasEdge u v = true ↔ E u v ∨ ((∃ k, a.plantclique = some k ∧ 1 < k) ∧ (u : Int) ∈ a.clique ∧ (v : Int) ∈ a.clique ∧ u ≠ v)) ∧
      vs.length * (vs.length - 1) / 2 < h.edges.length + k)

/-! ### Proofs -/

/-- A simple graph with vertices that are not negative. -/
structure Plain (vs : List Nat) (G : Nx Int) : Prop where
  undirected : G.directed = false
  nodes : G.nodes.Perm (vs.map Int.ofNat)
  sorted : vs.Pairwise (· < ·)
  distinct : EdgesDistinct G.edges
  ends : ∀ e ∈ G.edges, e.1 ∈ G.nodes ∧ e.2 ∈ G.nodes ∧ e.1 ≠ e.2
  plain : ∀ v, G.color v = none

theorem Plain.nodup {vs : List Nat} {G : Nx Int} (h : Plain vs G) : G.nodes.Nodup := by
  rw [h.nodes.nodup_iff]
  exact List.Nodup.map Int.ofNat_injective (h.sorted.imp (fun h => Nat.ne_of_lt h))

theorem Plain.simple {vs : List Nat} {G : Nx Int} (h : Plain vs G) : G.Simple where
  undirected := h.undirected
  nodup := h.nodup
  distinct := h.distinct
  ends := fun e he => .inl ⟨(h.ends e he).1, (h.ends e he).2.1, fun hc => absurd (h.plain _) (hc _ (h.ends e he).1), (h.ends e he).2.2⟩

theorem Plain.mem {vs : List Nat} {G : Nx Int} (h : Plain vs G) {x : Int} : x ∈ G.nodes ↔ ∃ v ∈ vs, (v : Int) = x := by
  rw [h.nodes.mem_iff, List.mem_map]; rfl

theorem Plain.toNat_verts {vs : List Nat} {G : Nx Int} (h : Plain vs G) : G.toGraph.verts = vs := by
  show isort _ _ = vs
  have hp : (G.nodes.map Int.toNat).Perm vs := by
    have := h.nodes.map Int.toNat
    rwa [List.map_map, show Int.toNat ∘ Int.ofNat = id from rfl, List.map_id] at this
  have hp' := (isort_perm (fun a b => decide (a < b)) (G.nodes.map Int.toNat)).trans hp
  have hs := isort_sorted (lt := fun a b : Nat => decide (a < b)) (by intro a b h; simp at h ⊢; omega) (by
    intro a b c h1 h2
    simp at h1 h2 ⊢; omega) (G.nodes.map Int.toNat)
  refine List.Perm.eq_of_pairwise (le := (· ≤ ·)) (fun a b _ _ h1 h2 => Nat.le_antisymm h1 h2) ?_ (h.sorted.imp Nat.le_of_lt) hp'
  refine hs.imp ?_
  intro a b h
  simp at h
  omega

theorem Plain.toGraph_mem {vs : List Nat} {G : Nx Int} (h : Plain vs G) {u v : Nat} : (u, v) ∈ G.toGraph.edges ↔ ((u : Int), (v : Int)) ∈ G.edges := by
  show (u, v) ∈ G.edges.map _ ↔ _
  rw [List.mem_map]
  constructor
  · rintro ⟨⟨x, y⟩, he, e⟩
    obtain ⟨a, _, rfl⟩ := h.mem.1 (h.ends _ he).1
    obtain ⟨b, _, rfl⟩ := h.mem.1 (h.ends _ he).2.1
    simp only [Prod.mk.injEq, Int.toNat_natCast] at e
    obtain ⟨rfl, rfl⟩ := e
    exact he
  · intro he
    exact ⟨_, he, by simp⟩

theorem Plain.toGraph_hasEdge {vs : List Nat} {G : Nx Int} (h : Plain vs G) {u v : Nat} : G.toGraph.hasEdge u v = true ↔ G.hasEdge (u : Int) v = true := by
  rw [Graph.hasEdge_iff, h.toGraph_mem, h.toGraph_mem]
  simp [Nx.hasEdge, h.undirected]

theorem Plain.toGraph_wf {vs : List Nat} {G : Nx Int} (h : Plain vs G) : G.toGraph.Wf where
  sorted := by rw [h.toNat_verts]; exact h.sorted
  ends := by
    rintro ⟨u, v⟩ he
    rw [h.toGraph_mem] at he
    have := h.ends _ he
    simp only [h.mem] at this
    obtain ⟨⟨a, ha, e1⟩, ⟨b, hb, e2⟩, hne⟩ := this
    rw [h.toNat_verts]
    obtain rfl : a = u := by omega
    obtain rfl : b = v := by omega
    exact ⟨ha, hb, fun e => hne (by rw [show a = b from e])⟩
  nodup := by
    have h1 : G.edges.Nodup := h.distinct.of_map _
    refine List.Nodup.map_on ?_ h1
    rintro ⟨x, y⟩ hx ⟨x', y'⟩ hx' e
    obtain ⟨a, _, rfl⟩ := h.mem.1 (h.ends _ hx).1
    obtain ⟨b, _, rfl⟩ := h.mem.1 (h.ends _ hx).2.1
    obtain ⟨a', _, rfl⟩ := h.mem.1 (h.ends _ hx').1
    obtain ⟨b', _, rfl⟩ := h.mem.1 (h.ends _ hx').2.1
    simp only [Prod.mk.injEq, Int.toNat_natCast] at e
    obtain ⟨rfl, rfl⟩ := e
    rfl
  once := by
    rintro ⟨u, v⟩ he he'
    rw [h.toGraph_mem] at he
    have he' := h.toGraph_mem.1 he'
    have hne := (h.ends _ he).2.2
    have := List.inj_on_of_nodup_map h.distinct he he' (by simp [Sym2.eq_swap])
    simp only [Prod.mk.injEq] at this
    exact hne this.1

theorem distinct_addEdge {V : Type} [DecidableEq V] {G : Nx V} (hu : G.directed = false) (h : EdgesDistinct G.edges) {u v : V} (h1 : u ∈ G.nodes) (h2 : v ∈ G.nodes) :
    EdgesDistinct (G.addEdge u v).edges := by
  rw [addEdge_mem h1 h2]
  split
  · exact h
  · rename_i hn
    unfold EdgesDistinct at *
    rw [List.map_append, List.nodup_append]
    refine ⟨h, by simp, ?_⟩
    intro a ha b hb e
    simp only [List.map_cons, List.map_nil, List.mem_singleton] at hb
    subst hb
    subst e
    exact hn ((hasEdge_sym2 hu).2 ha)

theorem Plain.addEdge {vs : List Nat} {G : Nx Int} (h : Plain vs G) {u v : Int} (h1 : u ∈ G.nodes) (h2 : v ∈ G.nodes) (hne : u ≠ v) : Plain vs (G.addEdge u v) := by
  have hs := addEdge_same h1 h2
  refine ⟨by rw [hs.directed]; exact h.undirected, by rw [hs.nodes]; exact h.nodes, h.sorted, distinct_addEdge h.undirected h.distinct h1 h2, ?_, by rw [hs.color]; exact h.plain⟩
  intro e he
  rw [hs.nodes]
  rcases mem_addEdge h1 h2 he with he | rfl
  · exact h.ends e he
  · exact ⟨h1, h2, hne⟩

theorem Plain.addEdges {vs : List Nat} : ∀ {es : List (Int × Int)} {G : Nx Int}, Plain vs G → (∀ e ∈ es, e.1 ∈ G.nodes ∧ e.2 ∈ G.nodes ∧ e.1 ≠ e.2) → Plain vs (G.addEdges es)
  | [], _, h, _ => h
  | e :: es, G, h, he => by
    have h1 := he e (by simp)
    have hs := addEdge_same h1.1 h1.2.1
    exact Plain.addEdges (es := es) (h.addEdge h1.1 h1.2.1 h1.2.2) (by rw [hs.nodes]; exact fun e' h' => he e' (by simp [h']))

theorem intsBelow_nodup (n : Nat) : (intsBelow n).Nodup := List.nodup_range.map Int.ofNat_injective

theorem NxGraph.plain' {n : Nat} {G : Nx Int} (h : NxGraph n G) : Plain (List.range n) G :=
  ⟨h.undirected, h.nodes, List.pairwise_lt_range, h.distinct, h.ends, h.plain⟩

theorem nodup_oneTo_sorted (n : Nat) : (oneTo n).Pairwise (· < ·) := by
  unfold oneTo
  rw [List.pairwise_map]
  exact List.pairwise_lt_range.imp (by intros; omega)

/-- The text, read. -/
theorem kth_plain {text : Str} {n : Nat} {adj : List (Int × List Int)} (h : KthText text n adj) (hl : ∀ v, ¬ Listed adj v v) :
    ∃ G, readKth .simple text = pure G ∧ Plain (oneTo n) G ∧ ∀ u v, G.hasEdge u v = true ↔ Listed adj u v ∨ Listed adj v u := by
  obtain ⟨st, e⟩ := adjLoop_total_false (kthStart false n) adj
  have hr : InRange n adj := by obtain ⟨_, _, _, _, _, _, hr⟩ := h; exact hr
  have inv := adjLoop_inv (KInv n false) (fun _ _ _ _ h => h.step) adj [] _ _ (KInv.start n false) hr e
  have inv2 := adjLoop_inv (bip := false) (n := n) (fun adj st => KInv n false adj st ∧ ((∀ v, ¬ Listed adj v v) → Plain (oneTo n) st.G)) (by
    rintro adj st a st' ⟨hk, hp⟩ hr e
    refine ⟨hk.step hr e, fun hl => ?_⟩
    have hp := hp (fun v hv => hl v (Listed.append.2 (.inl hv)))
    unfold adjStep at e
    simp only [Bool.false_eq_true, if_false, M.pure_bind] at e
    rw [← (M.pure_inj _ _).1 e]
    have hmem : ∀ x : Int, 1 ≤ x → x ≤ n → x ∈ st.G.nodes := by
      intro x h1 h2; rw [hk.nodes, mem_intsTo]; exact ⟨h1, h2⟩
    have heq : ∀ (ss : List Int) (G : Nx Int), ss.foldl (fun G s => G.addEdge s a.1) G = G.addEdges (ss.map fun s => (s, a.1)) := by
      intro ss
      induction ss with
      | nil => intro G; rfl
      | cons s ss ih => intro G; exact ih _
    show Plain (oneTo n) (a.2.foldl (fun G s => G.addEdge s a.1) st.G)
    rw [heq]
    refine hp.addEdges ?_
    intro e he
    obtain ⟨s, hs, rfl⟩ := List.mem_map.1 he
    refine ⟨hmem _ (hr.2 s hs).1 (hr.2 s hs).2, hmem _ hr.1.1 hr.1.2, ?_⟩
    rintro (h : s = a.1)
    subst h
    exact hl a.1 (Listed.append.2 (.inr ⟨a, by simp, rfl, hs⟩))) adj [] _ _ (by
    refine ⟨KInv.start n false, fun _ => ?_⟩
    have hk := KInv.start n false
    refine ⟨hk.directed, by rw [hk.nodes]; exact List.Perm.refl _, nodup_oneTo_sorted n, ?_, ?_, ?_⟩
    · have : (kthStart false n).G.edges = [] := List.eq_nil_iff_forall_not_mem.2 fun e he => by
        obtain ⟨_, h, _⟩ := hk.listed e he; simp at h
      rw [this]; simp [EdgesDistinct]
    · intro e he
      obtain ⟨_, h, _⟩ := hk.listed e he; simp at h
    · intro v
      rw [show (kthStart false n).G.color = fun _ => none from by unfold kthStart; trivial]) hr e
  refine ⟨{ st.G with name := commentText (readlines text), topo := st.topo }, ?_, ?_, ?_⟩
  · unfold readKth
    rw [kthGraph_text h, show decide (GType.simple = .bipartite) = false from rfl, show GType.simple.directed = false from rfl, e, M.pure_bind]
    dsimp only
    rw [if_neg (show ¬ GType.simple = GType.bipartite by decide), if_neg (show ¬ (st.n ≠ (st.G.nodes.length : Int)) by rw [inv.num, inv.nodes, length_intsTo]; simp), M.pure_bind]
  · have := inv2.2 (by simpa using hl)
    exact ⟨this.undirected, this.nodes, this.sorted, this.distinct, this.ends, this.plain⟩
  · intro u v
    have := inv.edges u v
    simpa [Nx.hasEdge] using this

/-- A source: refused, or the graph it describes. -/
theorem source_get {s : GraphSource} (h : s.Legal) :
    ((∀ vs E, ¬ s.Describes vs E) ∧ s.get = raise .valueError) ∨
    ∃ vs E G, s.Describes vs E ∧ s.get = pure G ∧ Plain vs G ∧ ∀ u v : Nat, E u v ↔ G.hasEdge u v = true := by
  cases s with
  | gnd n d G =>
    have hg : (GraphSource.gnd n d G).get = if n * d % 2 = 1 then raise .valueError else pure G := rfl
    rcases Nat.mod_two_eq_zero_or_one (n * d) with h0 | h1
    · rw [hg, if_neg (by rw [h0]; decide)]
      exact .inr ⟨_, _, G, ⟨h0, rfl, fun _ _ => Iff.rfl⟩, rfl, NxGraph.plain' h, fun _ _ => Iff.rfl⟩
    · rw [hg, if_pos h1]
      exact .inl ⟨fun vs E h => by have := h.1; omega, rfl⟩
  | gnp n G => exact .inr ⟨_, _, G, ⟨rfl, fun _ _ => Iff.rfl⟩, rfl, NxGraph.plain' h, fun _ _ => Iff.rfl⟩
  | gnm n m G => exact .inr ⟨_, _, G, ⟨rfl, fun _ _ => Iff.rfl⟩, rfl, NxGraph.plain' h, fun _ _ => Iff.rfl⟩
  | complete n =>
    obtain ⟨p1, p2, p3, _⟩ := pairs_spec (intsBelow_nodup n)
    refine .inr ⟨_, fun u v => u < n ∧ v < n ∧ u ≠ v, _, ⟨rfl, fun _ _ => Iff.rfl⟩, rfl, ⟨rfl, List.Perm.refl _, List.pairwise_lt_range, p1, p2, fun _ => rfl⟩, ?_⟩
    have hm : ∀ u : Nat, (u : Int) ∈ intsBelow n ↔ u < n := by
      intro u
      unfold intsBelow
      rw [List.mem_map]
      constructor
      · rintro ⟨a, ha, e⟩
        rw [List.mem_range] at ha
        have : a = u := Int.ofNat.inj e
        omega
      · intro hu; exact ⟨u, List.mem_range.2 hu, rfl⟩
    intro u v
    simp only [Nx.hasEdge, Bool.not_false, Bool.true_and, Bool.or_eq_true, decide_eq_true_eq]
    constructor
    · rintro ⟨h1, h2, h3⟩
      exact p3 _ ((hm u).2 h1) _ ((hm v).2 h2) (fun e => h3 (by exact_mod_cast e))
    · rintro (h | h)
      · have := p2 _ h
        exact ⟨(hm u).1 this.1, (hm v).1 this.2.1, fun e => this.2.2 (by rw [e])⟩
      · have := p2 _ h
        exact ⟨(hm u).1 this.2.1, (hm v).1 this.1, fun e => this.2.2 (by rw [e])⟩
  | empty n =>
    refine .inr ⟨_, fun _ _ => False, _, ⟨rfl, fun _ _ h => h⟩, rfl, ⟨rfl, List.Perm.refl _, List.pairwise_lt_range, by simp [EdgesDistinct], by simp, fun _ => rfl⟩, ?_⟩
    intro u v
    simp [Nx.hasEdge]
  | kthlist text =>
    by_cases hk : ∃ n adj, KthText text n adj
    · obtain ⟨n, adj, hk⟩ := hk
      obtain ⟨G, e, hp, he⟩ := kth_plain hk (h n adj hk)
      exact .inr ⟨_, fun u v => Listed adj u v ∨ Listed adj v u, G, ⟨n, adj, hk, rfl, fun _ _ => Iff.rfl⟩, e, hp, fun u v => (he u v).symm⟩
    · exact .inl ⟨fun vs E ⟨n, adj, h', _⟩ => hk ⟨n, adj, h'⟩, C71_kth_reject _ hk⟩

/-- A source describes one graph only. -/
theorem describes_unique {s : GraphSource} {vs vs' : List Nat} {E E' : Nat → Nat → Prop} (h : s.Describes vs E) (h' : s.Describes vs' E') :
    vs = vs' ∧ ∀ u v, E u v ↔ E' u v := by
  cases s with
  | gnd => exact ⟨h.2.1.trans h'.2.1.symm, fun u v => (h.2.2 u v).trans (h'.2.2 u v).symm⟩
  | gnp => exact ⟨h.1.trans h'.1.symm, fun u v => (h.2 u v).trans (h'.2 u v).symm⟩
  | gnm => exact ⟨h.1.trans h'.1.symm, fun u v => (h.2 u v).trans (h'.2 u v).symm⟩
  | complete => exact ⟨h.1.trans h'.1.symm, fun u v => (h.2 u v).trans (h'.2 u v).symm⟩
  | empty => exact ⟨h.1.trans h'.1.symm, fun u v => iff_of_false (h.2 u v) (h'.2 u v)⟩
  | kthlist =>
    obtain ⟨n, adj, h1, h2, h3⟩ := h
    obtain ⟨n', adj', h1', h2', h3'⟩ := h'
    obtain ⟨rfl, rfl⟩ := KthText.unique h1 h1'
    exact ⟨h2.trans h2'.symm, fun u v => (h3 u v).trans (h3' u v).symm⟩

/-- The number of edges of a simple graph depends on the pairs joined only. -/
theorem edges_length_eq {g h : Graph} (hg : g.Wf) (hh : h.Wf) (he : ∀ u v, g.hasEdge u v = true ↔ h.hasEdge u v = true) : g.edges.length = h.edges.length := by
  have key : ∀ {g h : Graph}, g.Wf → h.Wf → (∀ u v, g.hasEdge u v = true → h.hasEdge u v = true) → g.edges.length ≤ h.edges.length := by
    intro g h hg hh he
    have hn : (g.edges.map fun e => s(e.1, e.2)).Nodup := by
      refine List.Nodup.map_on ?_ hg.nodup
      rintro ⟨a, b⟩ h1 ⟨c, d⟩ h2 e
      rcases Sym2.eq_iff.1 e with ⟨rfl, rfl⟩ | ⟨rfl, rfl⟩
      · rfl
      · exact absurd h2 (hg.once _ h1)
    have := (hn.subperm (l₂ := h.edges.map fun e => s(e.1, e.2)) (by
      intro x hx
      obtain ⟨e, h1, rfl⟩ := List.mem_map.1 hx
      rcases Graph.hasEdge_iff.1 (he e.1 e.2 (Graph.hasEdge_iff.2 (.inl h1))) with h2 | h2
      · exact List.mem_map.2 ⟨_, h2, rfl⟩
      · exact List.mem_map.2 ⟨_, h2, Sym2.eq_swap⟩)).length_le
    simpa using this
  exact Nat.le_antisymm (key hg hh fun u v => (he u v).1) (key hh hg fun u v => (he u v).2)

/-- The graph with the clique. -/
theorem planted_spec {a : GraphArgs} (ha : a.Legal) {vs : List Nat} {E : Nat → Nat → Prop} (hd : a.source.Describes vs E) :
    ((∃ k, a.plantclique = some k ∧ 1 < k ∧ vs.length < k) ∧ a.planted = raise .valueError) ∨
    ((¬ ∃ k, a.plantclique = some k ∧ 1 < k ∧ vs.length < k) ∧ ∃ H, a.planted = pure H ∧ Plain vs H ∧
      ∀ u v : Nat, H.hasEdge u v = true ↔ E u v ∨ ((∃ k, a.plantclique = some k ∧ 1 < k) ∧ (u : Int) ∈ a.clique ∧ (v : Int) ∈ a.clique ∧ u ≠ v)) := by
  rcases source_get ha.source with ⟨h0, _⟩ | ⟨vs', E', G, hd', e, hp, hE⟩
  · exact absurd hd (h0 _ _)
  obtain ⟨rfl, hEE⟩ := describes_unique hd hd'
  have hlen : G.nodes.length = vs.length := by rw [hp.nodes.length_eq, List.length_map]
  unfold GraphArgs.planted
  rw [e, M.pure_bind]
  cases hk : a.plantclique with
  | none =>
    refine .inr ⟨by simp, G, rfl, hp, fun u v => ?_⟩
    rw [hEE, hE]; simp
  | some k =>
    have hc := C75_plant_clique hp.simple a.clique k
    by_cases h1 : 1 < k ∧ vs.length < k
    · exact .inl ⟨⟨k, rfl, h1⟩, hc.1 h1.1 (by rw [hlen]; exact h1.2)⟩
    · refine .inr ⟨?_, ?_⟩
      · rintro ⟨k', e', h'⟩
        injection e' with e'
        subst e'
        exact h1 h'
      · by_cases hk1 : 1 < k
        · obtain ⟨c1, c2, c3⟩ := ha.clique k hk hk1 G e (by omega)
          obtain ⟨H, e1, e2, e3, e4, e5⟩ := hc.2 c1 c2 c3
          refine ⟨H, e1, ?_, ?_⟩
          · unfold plantClique at e1
            rw [if_pos hk1, if_neg (by omega)] at e1
            rw [← (M.pure_inj _ _).1 e1]
            refine hp.addEdges fun e he => ?_
            have := (pairs_spec c1).2.1 e he
            exact ⟨c3 _ this.1, c3 _ this.2.1, this.2.2⟩
          · intro u v
            rw [e5, hEE, hE]
            simp [hk1]
        · refine ⟨G, show plantClique G a.clique k = _ from if_neg hk1, hp, fun u v => ?_⟩
          rw [hEE, hE]
          simp [hk1]

/-- **C84, `obtain_graph`.** The graph is the one ordered; an order that cannot be carried out is a `ValueError`; otherwise only `--addedges` can fail, with
`RuntimeError`. -/
theorem C84_obtain_graph {a : GraphArgs} (ha : a.Legal) :
    (a.Refused ∧ obtainGraph a = raise .valueError) ∨
    (¬ a.Refused ∧ ((∃ G vs, obtainGraph a = pure G ∧ Plain vs G ∧ a.Gives G.toGraph) ∨ (obtainGraph a = raise .runtimeError ∧ ∃ k, a.addedges = some k))) := by
  rcases source_get ha.source with ⟨h0, e⟩ | ⟨vs, E, G, hd, e, hp, hE⟩
  · refine .inl ⟨.inl h0, ?_⟩
    unfold obtainGraph GraphArgs.planted
    rw [e, M.raise_bind, M.raise_bind]
  rcases planted_spec ha hd with ⟨hk, e1⟩ | ⟨hk, H, e1, hH, hHE⟩
  · refine .inl ⟨.inr ⟨vs, E, hd, .inl hk⟩, ?_⟩
    unfold obtainGraph
    rw [e1, M.raise_bind]
  have hspec : ∀ u v : Nat, H.toGraph.hasEdge u v = true ↔ E u v ∨ ((∃ k, a.plantclique = some k ∧ 1 < k) ∧ (u : Int) ∈ a.clique ∧ (v : Int) ∈ a.clique ∧ u ≠ v) := by
    intro u v; rw [hH.toGraph_hasEdge, hHE]
  -- the orders refused
  have href : a.Refused ↔ ∃ k, a.addedges = some k ∧ vs.length * (vs.length - 1) / 2 < H.edges.length + k := by
    have hlen : H.toGraph.edges.length = H.edges.length := List.length_map _
    constructor
    · rintro (h | ⟨vs', E', hd', h⟩)
      · exact absurd hd (h _ _)
      · obtain ⟨rfl, hEE⟩ := describes_unique hd hd'
        rcases h with h | ⟨k, h1, g, h2, h3, h4, h5⟩
        · exact absurd h hk
        · refine ⟨k, h1, ?_⟩
          have := edges_length_eq hH.toGraph_wf h2 (fun u v => by rw [hspec, h4, hEE])
          omega
    · rintro ⟨k, h1, h2⟩
      exact .inr ⟨vs, E, hd, .inr ⟨k, h1, H.toGraph, hH.toGraph_wf, hH.toNat_verts, hspec, by omega⟩⟩
  unfold obtainGraph
  rw [e1, M.pure_bind]
  cases hk2 : a.addedges with
  | none =>
    refine .inr ⟨by rw [href, hk2]; simp, .inl ⟨H, vs, rfl, hH, vs, E, H.toGraph, hd, hH.toGraph_wf, hH.toGraph_wf, hH.toNat_verts, hH.toNat_verts, hspec, fun _ => rfl, ?_⟩⟩
    intro k h; rw [hk2] at h; cases h
  | some k =>
    have hdraw := ha.edges k hk2 H e1
    have hlenv : H.nodes.length = vs.length := by rw [hH.nodes.length_eq, List.length_map]
    have hcount : (¬ ∃ es, MissingEdges H k es) ↔ vs.length * (vs.length - 1) / 2 < H.edges.length + k := by
      have hx := exists_missing (m := k) hH.simple hdraw.order
      have hc := count_available hH.simple hdraw.order
      have ht : totalEdges H = vs.length * (vs.length - 1) / 2 := by
        unfold totalEdges
        rw [hlenv]
        split
        · rename_i hl
          rw [labelled_iff] at hl
          have : H.nodes = [] := List.eq_nil_iff_forall_not_mem.2 fun x hx => hl x hx (hH.plain x)
          have h0 : vs.length = 0 := by rw [← hlenv, this]; rfl
          simp [Nx.side, this, h0]
        · rfl
      rw [hx]
      omega
    have hadd := C75_add_edges hH.simple hdraw
    by_cases hm : ∃ es, MissingEdges H k es
    · refine .inr ⟨?_, ?_⟩
      · rw [href, hk2]
        rintro ⟨k', e', h'⟩
        injection e' with e'
        subst e'
        exact hcount.2 h' hm
      · rcases hadd.2 hm with h | ⟨K, h1, h2, h3, h4, h5, h6⟩
        · exact .inr ⟨h, k, rfl⟩
        · left
          have hK : Plain vs K := by
            refine ⟨h2.undirected, by rw [h3]; exact hH.nodes, hH.sorted, h2.distinct, fun e he => ?_, by rw [h4]; exact hH.plain⟩
            rcases h2.ends e he with h | h
            · exact ⟨h.1, h.2.1, h.2.2.2⟩
            · exact ⟨h.2.1, h.1, fun e => h.2.2.2 e.symm⟩
          refine ⟨K, vs, h1, hK, vs, E, H.toGraph, hd, hH.toGraph_wf, hK.toGraph_wf, hH.toNat_verts, hK.toNat_verts, hspec, fun h => (by rw [hk2] at h; cases h), ?_⟩
          intro k' e'
          rw [hk2] at e'
          injection e' with e'
          subst e'
          refine ⟨fun u v h => ?_, ?_⟩
          · rw [hK.toGraph_hasEdge]; rw [hH.toGraph_hasEdge] at h; exact h6 _ _ h
          · show (K.edges.map _).length = (H.edges.map _).length + k
            rw [List.length_map, List.length_map, h5]
    · exact .inl ⟨href.2 ⟨k, hk2, hcount.1 hm⟩, hadd.1.2 hm⟩

end NDP.Cnfgen
