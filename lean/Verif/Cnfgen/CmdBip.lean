import Verif.Cnfgen.CmdGraph
import Verif.Cnfgen.BipRegular
import Verif.Cnfgen.SubsetCard
import Mathlib.Data.Set.Card
/-
  How the sub-commands of `cnfgen` obtain a bipartite graph: `BipartiteGraphHelper.obtain_graph` (`cmdline.py` 673-757).
  Paths below are relative to `software/cnfgen/cnfformula`.
-/
namespace NDP.Cnfgen
open NDP

/-! ### Model -/

/-- The options of `cmdline.py` 606-632 that say which graph to take.  `bp` and `bm`: what `networkx` returns; `bd` and `bregular` with the random choices of
`BipGen.lean`; `kthlist`: the standard input read with `--graphformat kthlist`.  Not modelled: the other formats. -/
inductive BipSource where
  | bp (l r : Nat) (G : Nx Int)
  | bm (l r m : Nat) (G : Nx Int)
  | bd (l r d : Nat) (smp : Nat → List Nat)
  | bregular (l r d : Nat) (pick : Nat → Nat → Nat → Nat × Nat) (depth : Nat)
  | bshift (N K : Nat) (pattern : List Nat)
  | bcomplete (l r : Nat)
  | kthlist (text : Str)

/-- The numbers are the vertices. -/
def Nx.ofNats (G : Nx Nat) : Nx Int :=
  { directed := G.directed, name := G.name, nodes := G.nodes.map Int.ofNat, edges := G.edges.map fun e => ((e.1 : Int), (e.2 : Int)),
    color := fun x => if 0 ≤ x then G.color x.toNat else none, topo := G.topo }

/-- `cmdline.py` 680-720.  For `bcomplete`: `networkx.complete_bipartite_graph` with the labels of lines 708-711. -/
def BipSource.get : BipSource → M (Nx Int)
  | .bp _ _ G => pure G
  | .bm _ _ _ G => pure G
  | .bd l r d smp => do pure (← bipLeftRegular smp l r d).ofNats
  | .bregular l r d pick depth => do pure (← bipRegular pick depth l r d).ofNats
  | .bshift N K pattern => bipShift N K (pattern.map Int.ofNat)
  | .bcomplete l r => pure ((bipBase (intsBelow l) ((intsBelow r).map ((l : Int) + ·))).addEdges
      ((intsBelow l).flatMap fun u => ((intsBelow r).map ((l : Int) + ·)).map fun v => (u, v)))
  | .kthlist text => readKth .bipartite text

/-- The source and the modifications (`cmdline.py` 635-641), with the random choices they need. -/
structure BipArgs where
  source : BipSource
  plantbiclique : Option (Nat × Nat) := none
  left : List Int := []
  right : List Int := []
  addedges : Option Nat := none
  ord : List Int := []
  pos : List Nat := []
  draw : Nat → Int × Int := fun _ => (0, 0)

/-- `--plantbiclique`. -/
def BipArgs.planted (a : BipArgs) : M (Nx Int) := do
  let G ← a.source.get
  match a.plantbiclique with
  | none => pure G
  | some p => plantBiclique G a.left a.right p.1 p.2

/-- `cmdline.py` 673-757 (`obtain_graph`); `--savegraph` is not given. -/
def obtainBip (a : BipArgs) : M (Nx Int) := do
  let G ← a.planted
  match a.addedges with
  | none => pure G
  | some k => addRandomEdges G a.ord a.pos a.draw k

/-- The graph as the formulas see it: `bipartite_sets` (`graphs.py` 424-427) and the edges from left to right. -/
def Nx.toBip (G : Nx Int) : BiGraph :=
  let L := isort (fun a b => decide (a < b)) ((G.side false).map Int.toNat)
  let R := isort (fun a b => decide (a < b)) ((G.side true).map Int.toNat)
  ⟨L, R, L.flatMap fun u : Nat => (R.filter fun v : Nat => G.hasEdge (u : Int) (v : Int)).map fun v : Nat => (u, v)⟩

/-! ### Specification -/

/-- The two sides of the graphs of networkx: `0, …, l-1` and `l, …, l+r-1`. -/
def rightSide (l r : Nat) : List Nat := (List.range r).map (l + ·)

/-- A bipartite graph as networkx returns it. -/
structure NxBip (l r : Nat) (G : Nx Int) : Prop where
  undirected : G.directed = false
  nodes : G.nodes.Perm ((List.range l ++ rightSide l r).map Int.ofNat)
  left : ∀ v < l, G.color (v : Int) = some false
  right : ∀ v < r, G.color ((l + v : Nat) : Int) = some true
  distinct : EdgesDistinct G.edges
  ends : ∀ e ∈ G.edges, ∃ u < l, ∃ v < r, e = ((u : Int), ((l + v : Nat) : Int)) ∨ e = (((l + v : Nat) : Int), (u : Int))

/-- `u` is the target of a line. -/
def Target (adj : List (Int × List Int)) (u : Int) : Prop := ∃ b ∈ adj, u = b.1

/-- The sides and the edges the source stands for. -/
def BipSource.Describes : BipSource → List Nat → List Nat → (Nat → Nat → Prop) → Prop
  | .bp l r G, L, R, E => L = List.range l ∧ R = rightSide l r ∧ ∀ u v : Nat, E u v ↔ u ∈ L ∧ v ∈ R ∧ G.hasEdge u v = true
  | .bm l r _ G, L, R, E => L = List.range l ∧ R = rightSide l r ∧ ∀ u v : Nat, E u v ↔ u ∈ L ∧ v ∈ R ∧ G.hasEdge u v = true
  | .bd l r _ smp, L, R, E => L = List.range l ∧ R = rightSide l r ∧ ∀ u v : Nat, E u v ↔ u < l ∧ v ∈ smp u
  | .bregular l r d _ _, L, R, E => r ∣ l * d ∧ L = List.range l ∧ R = rightSide l r ∧ (∀ u v, E u v → u ∈ L ∧ v ∈ R) ∧
      (∀ u, {v | E u v}.ncard ≤ d) ∧ ∀ v, {u | E u v}.ncard ≤ l * d / r
  | .bshift N K pattern, L, R, E => 1 ≤ N ∧ 1 ≤ K ∧ (∀ p ∈ pattern, 1 ≤ p ∧ p ≤ K) ∧ L = oneTo N ∧ R = (oneTo K).map (N + ·) ∧
      ∀ u v, E u v ↔ u ∈ L ∧ v ∈ R ∧ ∃ p ∈ pattern, (K : Int) ∣ ((v : Int) - N) - ((p : Int) + u - 1)
  | .bcomplete l r, L, R, E => L = List.range l ∧ R = rightSide l r ∧ ∀ u v, E u v ↔ u ∈ L ∧ v ∈ R
  | .kthlist text, L, R, E => ∃ n adj, KthText text n adj ∧ L.Pairwise (· < ·) ∧ R.Pairwise (· < ·) ∧
      (∀ v, v ∈ L ↔ 1 ≤ v ∧ v ≤ n ∧ Target adj v) ∧ (∀ v, v ∈ R ↔ 1 ≤ v ∧ v ≤ n ∧ ¬ Target adj v) ∧ ∀ u v : Nat, E u v ↔ Listed adj v u

/-- What the random choices satisfy; a text has the documented form: no vertex is the target of a line and listed in a line. -/
def BipSource.Legal : BipSource → Prop
  | .bp l r G => NxBip l r G
  | .bm l r _ G => NxBip l r G
  | .bd l r d smp => ∀ u < l, (smp u).Nodup ∧ (smp u).length = min r d ∧ ∀ v ∈ smp u, l ≤ v ∧ v < l + r
  | .bregular l r d pick _ => 0 < r ∧ ∀ j, PickOK (l * d) (pick j)
  | .kthlist text => ∀ n adj, KthText text n adj → ∀ a ∈ adj, ∀ b ∈ adj, a.1 ∉ b.2
  | _ => True

def BipSource.IsRegular : BipSource → Prop
  | .bregular _ _ _ _ _ => True
  | _ => False

/-- What the random choices satisfy: `random.sample` on the sides, and the choices of `sample_missing_edges`. -/
structure BipArgs.Legal (a : BipArgs) : Prop where
  source : a.source.Legal
  biclique : ∀ p, a.plantbiclique = some p → ∀ G, a.source.get = pure G → p.1 ≤ (G.side false).length → p.2 ≤ (G.side true).length →
    (a.left.Nodup ∧ a.left.length = p.1 ∧ ∀ v ∈ a.left, v ∈ G.side false) ∧ a.right.Nodup ∧ a.right.length = p.2 ∧ ∀ v ∈ a.right, v ∈ G.side true
  edges : ∀ k, a.addedges = some k → ∀ G, a.planted = pure G → DrawOK G a.ord a.pos a.draw k

/-- `h` is a graph as ordered before edges are added: sides and edges of the source, and the edges between the vertices chosen, if there is to be a
biclique that fits. -/
def BipArgs.Plants (a : BipArgs) (h : BiGraph) : Prop :=
  ∃ L R E, a.source.Describes L R E ∧ h.Ordered ∧ h.edges.Nodup ∧ h.left = L ∧ h.right = R ∧
    (∀ p, a.plantbiclique = some p → p.1 ≤ L.length ∧ p.2 ≤ R.length) ∧
    ∀ u v : Nat, (u, v) ∈ h.edges ↔ E u v ∨ (a.plantbiclique ≠ none ∧ (u : Int) ∈ a.left ∧ (v : Int) ∈ a.right)

/-- `g` is a graph as ordered. -/
def BipArgs.Gives (a : BipArgs) (g : BiGraph) : Prop :=
  ∃ h, a.Plants h ∧ g.Ordered ∧ g.edges.Nodup ∧ g.left = h.left ∧ g.right = h.right ∧
    (a.addedges = none → ∀ e, e ∈ g.edges ↔ e ∈ h.edges) ∧
    ∀ k, a.addedges = some k → (∀ e ∈ h.edges, e ∈ g.edges) ∧ g.edges.length = h.edges.length + k

/-- The edges to add are more than the pairs without an edge. -/
def BipArgs.NoRoom (a : BipArgs) : Prop := ∃ h k, a.Plants h ∧ a.addedges = some k ∧ h.left.length * h.right.length < h.edges.length + k

/-! ### Proofs -/

/-- A bipartite graph with vertices that are not negative. -/
structure Bip (L R : List Nat) (G : Nx Int) : Prop where
  undirected : G.directed = false
  nodes : G.nodes.Perm ((L ++ R).map Int.ofNat)
  sortedL : L.Pairwise (· < ·)
  sortedR : R.Pairwise (· < ·)
  disjoint : ∀ v ∈ L, v ∉ R
  left : ∀ v ∈ L, G.color (v : Int) = some false
  right : ∀ v ∈ R, G.color (v : Int) = some true
  distinct : EdgesDistinct G.edges
  ends : ∀ e ∈ G.edges, ∃ u ∈ L, ∃ v ∈ R, e = ((u : Int), (v : Int)) ∨ e = ((v : Int), (u : Int))

section
variable {L R : List Nat} {G : Nx Int}

theorem Bip.mem (h : Bip L R G) {x : Int} : x ∈ G.nodes ↔ ∃ v, (v ∈ L ∨ v ∈ R) ∧ (v : Int) = x := by
  rw [h.nodes.mem_iff, List.mem_map]
  simp only [List.mem_append]
  rfl

theorem Bip.nodup (h : Bip L R G) : G.nodes.Nodup := by
  rw [h.nodes.nodup_iff]
  refine List.Nodup.map Int.ofNat_injective ?_
  rw [List.nodup_append]
  exact ⟨h.sortedL.imp fun h => Nat.ne_of_lt h, h.sortedR.imp fun h => Nat.ne_of_lt h, fun a ha b hb e => h.disjoint a ha (e ▸ hb)⟩

theorem Bip.labelled (h : Bip L R G) : ∀ x ∈ G.nodes, G.color x ≠ none := by
  intro x hx
  obtain ⟨v, hv | hv, rfl⟩ := h.mem.1 hx
  · rw [h.left v hv]; simp
  · rw [h.right v hv]; simp

theorem Bip.simple (h : Bip L R G) : G.Simple where
  undirected := h.undirected
  nodup := h.nodup
  distinct := h.distinct
  ends := by
    intro e he
    obtain ⟨u, hu, v, hv, he⟩ := h.ends e he
    have hne : (u : Int) ≠ v := fun e => h.disjoint u hu (by rw [show u = v by exact_mod_cast e]; exact hv)
    have hj : G.Joinable (u : Int) v := ⟨h.mem.2 ⟨u, .inl hu, rfl⟩, h.mem.2 ⟨v, .inr hv, rfl⟩, fun _ => ⟨h.left u hu, h.right v hv⟩, hne⟩
    rcases he with rfl | rfl
    · exact .inl hj
    · exact .inr hj

theorem Bip.side_perm (h : Bip L R G) : (G.side false).Perm (L.map Int.ofNat) ∧ (G.side true).Perm (R.map Int.ofNat) := by
  constructor
  · unfold Nx.side
    refine (h.nodes.filter _).trans ?_
    rw [List.map_append, List.filter_append, List.filter_eq_self.2, List.filter_eq_nil_iff.2, List.append_nil]
    · intro x hx
      obtain ⟨v, hv, rfl⟩ := List.mem_map.1 hx
      have := h.right v hv
      simp only [decide_eq_true_eq]
      intro h'
      have h' : G.color (v : Int) = _ := h'
      rw [this] at h'
      cases h'
    · intro x hx
      obtain ⟨v, hv, rfl⟩ := List.mem_map.1 hx
      have := h.left v hv
      simpa using this
  · unfold Nx.side
    refine (h.nodes.filter _).trans ?_
    rw [List.map_append, List.filter_append, List.filter_eq_nil_iff.2, List.filter_eq_self.2, List.nil_append]
    · intro x hx
      obtain ⟨v, hv, rfl⟩ := List.mem_map.1 hx
      have := h.right v hv
      simpa using this
    · intro x hx
      obtain ⟨v, hv, rfl⟩ := List.mem_map.1 hx
      have := h.left v hv
      simp only [decide_eq_true_eq]
      intro h'
      have h' : G.color (v : Int) = _ := h'
      rw [this] at h'
      cases h'

theorem isort_nat_perm {l vs : List Nat} (hp : l.Perm vs) (hs : vs.Pairwise (· < ·)) : isort (fun a b => decide (a < b)) l = vs := by
  have hp' := (isort_perm (fun a b => decide (a < b)) l).trans hp
  have hs' := isort_sorted (lt := fun a b : Nat => decide (a < b)) (by intro a b h; simp at h ⊢; omega) (by
    intro a b c h1 h2
    simp at h1 h2 ⊢; omega) l
  refine List.Perm.eq_of_pairwise (le := (· ≤ ·)) (fun a b _ _ h1 h2 => Nat.le_antisymm h1 h2) ?_ (hs.imp Nat.le_of_lt) hp'
  refine hs'.imp ?_
  intro a b h
  simp at h
  omega

theorem map_toNat_ofNat (l : List Nat) : (l.map Int.ofNat).map Int.toNat = l := by
  rw [List.map_map, show Int.toNat ∘ Int.ofNat = id from rfl, List.map_id]

theorem Bip.toBip_left (h : Bip L R G) : G.toBip.left = L :=
  isort_nat_perm (by have := h.side_perm.1.map Int.toNat; rwa [map_toNat_ofNat] at this) h.sortedL

theorem Bip.toBip_right (h : Bip L R G) : G.toBip.right = R :=
  isort_nat_perm (by have := h.side_perm.2.map Int.toNat; rwa [map_toNat_ofNat] at this) h.sortedR

theorem toBip_edges (G : Nx Int) : G.toBip.edges = G.toBip.left.flatMap fun u : Nat => (G.toBip.right.filter fun v : Nat => G.hasEdge (u : Int) (v : Int)).map fun v : Nat => (u, v) := rfl

theorem Bip.toBip_mem (h : Bip L R G) {u v : Nat} : (u, v) ∈ G.toBip.edges ↔ u ∈ L ∧ v ∈ R ∧ G.hasEdge (u : Int) v = true := by
  rw [toBip_edges, h.toBip_left, h.toBip_right]
  simp only [List.mem_flatMap, List.mem_map, List.mem_filter, Prod.mk.injEq]
  constructor
  · rintro ⟨a, ha, b, ⟨hb, he⟩, rfl, rfl⟩; exact ⟨ha, hb, he⟩
  · rintro ⟨h1, h2, h3⟩; exact ⟨u, h1, v, ⟨h2, h3⟩, rfl, rfl⟩

theorem Bip.toBip_ordered (h : Bip L R G) : G.toBip.Ordered where
  left_sorted := by rw [h.toBip_left]; exact h.sortedL
  right_sorted := by rw [h.toBip_right]; exact h.sortedR
  disjoint := by rw [h.toBip_left, h.toBip_right]; exact h.disjoint
  ends := by
    rintro ⟨u, v⟩ he
    rw [h.toBip_mem] at he
    rw [h.toBip_left, h.toBip_right]
    exact ⟨he.1, he.2.1⟩

theorem Bip.toBip_nodup (h : Bip L R G) : G.toBip.edges.Nodup := by
  rw [toBip_edges, h.toBip_left, h.toBip_right]
  have hL : L.Nodup := h.sortedL.imp fun h => Nat.ne_of_lt h
  have hR : R.Nodup := h.sortedR.imp fun h => Nat.ne_of_lt h
  exact nodup_flatMap_key Prod.fst _ _ hL (fun u => List.Nodup.map (fun a b e => by simpa using e) (hR.filter _))
    (fun u a ha => by obtain ⟨i, _, rfl⟩ := List.mem_map.1 ha; rfl)

/-- Each edge is listed once. -/
theorem Bip.toBip_length (h : Bip L R G) : G.toBip.edges.length = G.edges.length := by
  have h1 : (G.toBip.edges.map fun e => s((e.1 : Int), (e.2 : Int))).Nodup := by
    refine List.Nodup.map_on ?_ h.toBip_nodup
    rintro ⟨a, b⟩ ha ⟨c, d⟩ hc e
    rw [h.toBip_mem] at ha hc
    rcases Sym2.eq_iff.1 e with ⟨e1, e2⟩ | ⟨e1, e2⟩
    · dsimp only at e1 e2
      rw [show a = c by exact_mod_cast e1, show b = d by exact_mod_cast e2]
    · dsimp only at e1 e2
      have : a = d := by exact_mod_cast e1
      subst this
      exact absurd hc.2.1 (h.disjoint _ ha.1)
  have hp : (G.toBip.edges.map fun e => s((e.1 : Int), (e.2 : Int))).Perm (G.edges.map fun e => s(e.1, e.2)) := by
    rw [List.perm_ext_iff_of_nodup h1 h.distinct]
    intro x
    simp only [List.mem_map]
    constructor
    · rintro ⟨⟨u, v⟩, he, rfl⟩
      rw [h.toBip_mem] at he
      have := he.2.2
      simp only [Nx.hasEdge, h.undirected, Bool.not_false, Bool.true_and, Bool.or_eq_true, decide_eq_true_eq] at this
      rcases this with h' | h'
      · exact ⟨_, h', rfl⟩
      · exact ⟨_, h', Sym2.eq_swap⟩
    · rintro ⟨e, he, rfl⟩
      obtain ⟨u, hu, v, hv, rfl | rfl⟩ := h.ends e he
      · exact ⟨(u, v), h.toBip_mem.2 ⟨hu, hv, by simp [Nx.hasEdge, he]⟩, rfl⟩
      · exact ⟨(u, v), h.toBip_mem.2 ⟨hu, hv, by simp [Nx.hasEdge, he, h.undirected]⟩, Sym2.eq_swap⟩
  have := hp.length_eq
  simpa using this

theorem Bip.addEdge (h : Bip L R G) {u v : Nat} (h1 : u ∈ L) (h2 : v ∈ R) : Bip L R (G.addEdge (u : Int) v) := by
  have m1 : (u : Int) ∈ G.nodes := h.mem.2 ⟨u, .inl h1, rfl⟩
  have m2 : (v : Int) ∈ G.nodes := h.mem.2 ⟨v, .inr h2, rfl⟩
  have hs := addEdge_same m1 m2
  refine ⟨by rw [hs.directed]; exact h.undirected, by rw [hs.nodes]; exact h.nodes, h.sortedL, h.sortedR, h.disjoint, by rw [hs.color]; exact h.left, by rw [hs.color]; exact h.right,
    distinct_addEdge h.undirected h.distinct m1 m2, ?_⟩
  intro e he
  rcases mem_addEdge m1 m2 he with he | rfl
  · exact h.ends e he
  · exact ⟨u, h1, v, h2, .inl rfl⟩

theorem Bip.addEdges : ∀ {es : List (Int × Int)} {G : Nx Int}, Bip L R G → (∀ e ∈ es, ∃ u ∈ L, ∃ v ∈ R, e = ((u : Int), (v : Int))) → Bip L R (G.addEdges es)
  | [], _, h, _ => h
  | e :: es, G, h, he => by
    obtain ⟨u, hu, v, hv, rfl⟩ := he e (by simp)
    exact Bip.addEdges (es := es) (h.addEdge hu hv) (fun e' h' => he e' (by simp [h']))

end

/-! #### The sources -/

theorem distinct_addEdges {V : Type} [DecidableEq V] : ∀ {es : List (V × V)} {G : Nx V}, G.directed = false → EdgesDistinct G.edges →
    (∀ e ∈ es, e.1 ∈ G.nodes ∧ e.2 ∈ G.nodes) → EdgesDistinct (G.addEdges es).edges
  | [], _, _, h, _ => h
  | e :: es, G, hu, h, he => by
    have hs := addEdge_same (he e (by simp)).1 (he e (by simp)).2
    refine distinct_addEdges (es := es) (G := G.addEdge e.1 e.2) (by rw [hs.directed]; exact hu) (distinct_addEdge hu h (he e (by simp)).1 (he e (by simp)).2) ?_
    intro e' h'
    rw [hs.nodes]
    exact he e' (by simp [h'])

theorem distinct_bipBase {V : Type} [DecidableEq V] {L R : List V} (h : (L ++ R).Nodup) {es : List (V × V)} (hes : ∀ e ∈ es, e.1 ∈ L ∧ e.2 ∈ R) :
    EdgesDistinct ((bipBase L R).addEdges es).edges := by
  have hb := bipBase_eq h
  refine distinct_addEdges (by rw [hb]) (by rw [hb]; simp [EdgesDistinct]) ?_
  intro e he
  rw [hb]
  have := hes e he
  simp [this.1, this.2]

theorem Bip.of_int {L R : List Nat} {G : Nx Int} (hG : G.IsBip (L.map Int.ofNat) (R.map Int.ofNat)) (hL : L.Pairwise (· < ·)) (hR : R.Pairwise (· < ·))
    (hd : EdgesDistinct G.edges) : Bip L R G where
  undirected := hG.directed
  nodes := by rw [hG.nodes, List.map_append]
  sortedL := hL
  sortedR := hR
  disjoint := fun v h1 h2 => (List.nodup_append.1 hG.nodup).2.2 v (List.mem_map.2 ⟨v, h1, rfl⟩) v (List.mem_map.2 ⟨v, h2, rfl⟩) rfl
  left := fun v hv => hG.left _ (List.mem_map.2 ⟨v, hv, rfl⟩)
  right := fun v hv => hG.right _ (List.mem_map.2 ⟨v, hv, rfl⟩)
  distinct := hd
  ends := by
    intro e he
    have : G.hasEdge e.1 e.2 = true := by simp [Nx.hasEdge, he]
    rcases hG.cross _ _ this with ⟨h1, h2⟩ | ⟨h1, h2⟩
    · obtain ⟨u, hu, eu⟩ := List.mem_map.1 h1
      obtain ⟨v, hv, ev⟩ := List.mem_map.1 h2
      exact ⟨u, hu, v, hv, .inl (Prod.ext eu.symm ev.symm)⟩
    · obtain ⟨v, hv, ev⟩ := List.mem_map.1 h1
      obtain ⟨u, hu, eu⟩ := List.mem_map.1 h2
      exact ⟨u, hu, v, hv, .inr (Prod.ext ev.symm eu.symm)⟩

theorem hasEdge_ofNats (G : Nx Nat) (u v : Nat) : G.ofNats.hasEdge (u : Int) v = G.hasEdge u v := by
  have h : ∀ a b : Nat, ((a : Int), (b : Int)) ∈ G.edges.map (fun e => ((e.1 : Int), (e.2 : Int))) ↔ (a, b) ∈ G.edges := by
    intro a b
    rw [List.mem_map]
    constructor
    · rintro ⟨⟨c, d⟩, hm, e⟩
      simp only [Prod.mk.injEq, Nat.cast_inj] at e
      rw [← e.1, ← e.2]; exact hm
    · intro hm; exact ⟨_, hm, rfl⟩
  rw [Bool.eq_iff_iff, hasEdge_iff, hasEdge_iff]
  show _ ∈ G.edges.map _ ∨ (G.directed = false ∧ _ ∈ G.edges.map _) ↔ _
  rw [h, h]

theorem Bip.of_nat {L R : List Nat} {G : Nx Nat} (hG : G.IsBip L R) (hL : L.Pairwise (· < ·)) (hR : R.Pairwise (· < ·)) (hd : EdgesDistinct G.edges) :
    Bip L R G.ofNats where
  undirected := hG.directed
  nodes := by show (G.nodes.map Int.ofNat).Perm _; rw [hG.nodes]
  sortedL := hL
  sortedR := hR
  disjoint := fun v h1 h2 => (List.nodup_append.1 hG.nodup).2.2 v h1 v h2 rfl
  left := fun v hv => (if_pos (e := none) (Int.natCast_nonneg v)).trans (hG.left v hv)
  right := fun v hv => (if_pos (e := none) (Int.natCast_nonneg v)).trans (hG.right v hv)
  distinct := by
    unfold EdgesDistinct
    show ((G.edges.map fun e => ((e.1 : Int), (e.2 : Int))).map fun e => s(e.1, e.2)).Nodup
    have : ((G.edges.map fun e => ((e.1 : Int), (e.2 : Int))).map fun e => s(e.1, e.2)) = (G.edges.map fun e => s(e.1, e.2)).map (Sym2.map Int.ofNat) := by
      rw [List.map_map, List.map_map]; rfl
    rw [this]
    exact List.Nodup.map (Sym2.map.injective Int.ofNat_injective) hd
  ends := by
    intro e he
    obtain ⟨e, he', rfl⟩ := List.mem_map.1 he
    have : G.hasEdge e.1 e.2 = true := by simp [Nx.hasEdge, he']
    rcases hG.cross _ _ this with ⟨h1, h2⟩ | ⟨h1, h2⟩
    · exact ⟨_, h1, _, h2, .inl rfl⟩
    · exact ⟨_, h2, _, h1, .inr rfl⟩

theorem rightSide_sorted (l r : Nat) : (rightSide l r).Pairwise (· < ·) :=
  List.Pairwise.map _ (fun a b h => Nat.add_lt_add_left h l) (List.pairwise_lt_range (n := r))
theorem mem_rightSide {l r v : Nat} : v ∈ rightSide l r ↔ l ≤ v ∧ v < l + r := by
  unfold rightSide
  rw [List.mem_map]
  constructor
  · rintro ⟨w, hw, rfl⟩; rw [List.mem_range] at hw; omega
  · intro h; exact ⟨v - l, List.mem_range.2 (by omega), by omega⟩
theorem sides_disjoint (l r : Nat) : ∀ v ∈ List.range l, v ∉ rightSide l r := by
  intro v h1 h2
  rw [mem_rightSide] at h2
  rw [List.mem_range] at h1
  omega

/-- What a source does: refused, or a graph; `RecursionError` for regular graphs. -/
def SourceOK (s : BipSource) : Prop :=
  ((∀ L R E, ¬ s.Describes L R E) ∧ s.get = raise .valueError) ∨ (s.get = raise .recursionError ∧ s.IsRegular) ∨
  ∃ L R E G, s.Describes L R E ∧ s.get = pure G ∧ Bip L R G ∧ ∀ u v : Nat, E u v ↔ u ∈ L ∧ v ∈ R ∧ G.hasEdge (u : Int) v = true

theorem NxBip.bip {l r : Nat} {G : Nx Int} (h : NxBip l r G) : Bip (List.range l) (rightSide l r) G where
  undirected := h.undirected
  nodes := h.nodes
  sortedL := List.pairwise_lt_range
  sortedR := rightSide_sorted l r
  disjoint := sides_disjoint l r
  left := fun v hv => h.left v (List.mem_range.1 hv)
  right := by
    intro v hv
    obtain ⟨w, hw, rfl⟩ := List.mem_map.1 hv
    exact h.right w (List.mem_range.1 hw)
  distinct := h.distinct
  ends := by
    intro e he
    obtain ⟨u, hu, v, hv, h'⟩ := h.ends e he
    exact ⟨u, List.mem_range.2 hu, l + v, List.mem_map.2 ⟨v, List.mem_range.2 hv, rfl⟩, h'⟩

theorem source_nx {l r : Nat} {G : Nx Int} (h : NxBip l r G) : SourceOK (.bp l r G) ∧ ∀ m, SourceOK (.bm l r m G) :=
  ⟨.inr (.inr ⟨_, _, fun u v => u ∈ List.range l ∧ v ∈ rightSide l r ∧ G.hasEdge (u : Int) v = true, G, ⟨rfl, rfl, fun _ _ => Iff.rfl⟩, rfl, h.bip, fun _ _ => Iff.rfl⟩),
   fun _ => .inr (.inr ⟨_, _, fun u v => u ∈ List.range l ∧ v ∈ rightSide l r ∧ G.hasEdge (u : Int) v = true, G, ⟨rfl, rfl, fun _ _ => Iff.rfl⟩, rfl, h.bip, fun _ _ => Iff.rfl⟩)⟩

theorem source_bd {l r d : Nat} {smp : Nat → List Nat} (h : (BipSource.bd l r d smp).Legal) : SourceOK (.bd l r d smp) := by
  have h : ∀ u < l, (smp u).Nodup ∧ (smp u).length = min r d ∧ ∀ v ∈ smp u, l ≤ v ∧ v < l + r := h
  obtain ⟨G, e, hb, hE⟩ := (C74_left_regular smp l r d).2 (by omega) (by omega) (by omega) (by simpa using h)
  simp only [Int.toNat_natCast] at hb hE
  have hd : EdgesDistinct G.edges := by
    unfold bipLeftRegular at e
    rw [if_neg (by omega)] at e
    rw [← (M.pure_inj _ _).1 e]
    simp only [Int.toNat_natCast]
    refine distinct_bipBase (sides_nodup l r) ?_
    intro e he
    obtain ⟨u, hu, hm⟩ := List.mem_flatMap.1 he
    obtain ⟨v, hv, rfl⟩ := List.mem_map.1 hm
    rw [mem_isort] at hv
    exact ⟨hu, mem_rightSide.2 ((h u (List.mem_range.1 hu)).2.2 v hv)⟩
  refine .inr (.inr ⟨List.range l, rightSide l r, fun u v => u < l ∧ v ∈ smp u, G.ofNats, ⟨rfl, rfl, fun _ _ => Iff.rfl⟩, ?_,
    Bip.of_nat hb (List.pairwise_lt_range) (rightSide_sorted l r) hd, ?_⟩)
  · show (bipLeftRegular smp l r d >>= fun G => pure G.ofNats) = _
    rw [e, M.pure_bind]
  · intro u v
    rw [hasEdge_ofNats, List.mem_range, mem_rightSide]
    constructor
    · rintro ⟨h1, h2⟩; exact ⟨h1, (h u h1).2.2 v h2, ((hE u h1).2 v).2 h2⟩
    · rintro ⟨h1, h2, h3⟩; exact ⟨h1, ((hE u h1).2 v).1 h3⟩

theorem ncard_le_filter {l : List Nat} {p : Nat → Bool} {S : Set Nat} {d : Nat} (h : ∀ v ∈ S, v ∈ l ∧ p v = true) (hd : (l.filter p).length ≤ d) : S.ncard ≤ d := by
  have hsub : S ⊆ ((l.filter p).toFinset : Set Nat) := by
    intro v hv
    simpa using h v hv
  calc S.ncard ≤ ((l.filter p).toFinset : Set Nat).ncard := Set.ncard_le_ncard hsub (Finset.finite_toSet _)
    _ = (l.filter p).toFinset.card := Set.ncard_coe_finset _
    _ ≤ (l.filter p).length := List.toFinset_card_le _
    _ ≤ d := hd

theorem source_bregular {l r d : Nat} {pick : Nat → Nat → Nat → Nat × Nat} {depth : Nat} (h : (BipSource.bregular l r d pick depth).Legal) :
    SourceOK (.bregular l r d pick depth) := by
  obtain ⟨hr, hp⟩ : 0 < r ∧ ∀ j, PickOK (l * d) (pick j) := h
  by_cases hdvd : r ∣ l * d
  · rcases C74_regular pick depth l r d hr hdvd hp with e | ⟨G, e, hb, hn, _, h1, h2, _⟩
    · refine .inr (.inl ⟨?_, trivial⟩)
      show (bipRegular pick depth l r d >>= fun G => pure G.ofNats) = _
      rw [e, M.raise_bind]
    · have hs : ∀ e ∈ G.edges, e.1 ∈ List.range l ∧ e.2 ∈ rightSide l r := by
        unfold bipRegular at e
        rw [if_neg (by omega), if_neg (by omega)] at e
        split at e
        · simp at e
        · split at e
          · rename_i G' e'
            rw [← (M.pure_inj _ _).1 e]
            simp only [Int.toNat_natCast] at e'
            obtain ⟨j, _, hj⟩ := List.exists_of_findSome?_eq_some e'
            obtain ⟨st, rfl, inv⟩ := regAttempt_inv hdvd (hp j) hj
            exact inv.sides
          · simp at e
      have hd : EdgesDistinct G.edges := by
        unfold EdgesDistinct
        refine List.Nodup.map_on ?_ hn
        rintro ⟨a, b⟩ ha ⟨c, d⟩ hc e
        rcases Sym2.eq_iff.1 e with ⟨e1, e2⟩ | ⟨e1, e2⟩
        · dsimp only at e1 e2; rw [e1, e2]
        · dsimp only at e1 e2
          exact absurd (hs _ hc).2 (e1 ▸ sides_disjoint l r a (hs _ ha).1)
      have hB := Bip.of_nat hb (List.pairwise_lt_range) (rightSide_sorted l r) hd
      refine .inr (.inr ⟨List.range l, rightSide l r, fun u v => u ∈ List.range l ∧ v ∈ rightSide l r ∧ G.ofNats.hasEdge (u : Int) v = true, G.ofNats,
        ⟨hdvd, rfl, rfl, fun u v h => ⟨h.1, h.2.1⟩, ?_, ?_⟩, ?_, hB, fun _ _ => Iff.rfl⟩)
      · intro u
        by_cases hu : u < l
        · refine ncard_le_filter (l := G.nodes) (p := fun v => G.hasEdge u v) ?_ (h1 u hu)
          rintro v ⟨_, hv, he⟩
          rw [hasEdge_ofNats] at he
          rw [hb.nodes]
          exact ⟨List.mem_append.2 (.inr hv), he⟩
        · have : {v | u ∈ List.range l ∧ v ∈ rightSide l r ∧ G.ofNats.hasEdge (u : Int) v = true} = ∅ := by
            ext v; simp [hu]
          rw [this]; simp
      · intro v
        by_cases hv : v ∈ rightSide l r
        · obtain ⟨w, hw, rfl⟩ := List.mem_map.1 hv
          refine ncard_le_filter (l := G.nodes) (p := fun u => G.hasEdge (l + w) u) ?_ (h2 w (List.mem_range.1 hw))
          rintro u ⟨hu, _, he⟩
          rw [hasEdge_ofNats, hasEdge_edges hb] at he
          rw [hb.nodes]
          exact ⟨List.mem_append.2 (.inl hu), (hasEdge_edges hb _ _).2 he.symm⟩
        · have : {u | u ∈ List.range l ∧ v ∈ rightSide l r ∧ G.ofNats.hasEdge (u : Int) v = true} = ∅ := by
            ext u; simp [hv]
          rw [this]; simp
      · show (bipRegular pick depth l r d >>= fun G => pure G.ofNats) = _
        rw [e, M.pure_bind]
  · refine .inl ⟨fun L R E hD => hdvd hD.1, ?_⟩
    show (bipRegular pick depth l r d >>= fun G => pure G.ofNats) = _
    rw [(C74_regular_errors pick depth l r d).2.2 (by omega) (by omega) (by omega) (fun h => hdvd (by exact_mod_cast h)), M.raise_bind]

theorem source_bshift (N K : Nat) (pattern : List Nat) : SourceOK (.bshift N K pattern) := by
  have hpat : ∀ {x : Int}, x ∈ pattern.map Int.ofNat ↔ ∃ p ∈ pattern, (p : Int) = x := by intro x; rw [List.mem_map]; rfl
  by_cases hok : 1 ≤ N ∧ 1 ≤ K ∧ ∀ p ∈ pattern, 1 ≤ p ∧ p ≤ K
  · obtain ⟨hN, hK, hp⟩ := hok
    have hp' : ∀ p ∈ pattern.map Int.ofNat, 1 ≤ p ∧ p ≤ (K : Int) := by
      intro x hx
      obtain ⟨p, h, rfl⟩ := hpat.1 hx
      have := hp p h
      omega
    obtain ⟨G, e, hb, hE⟩ := (C74_shift N K (pattern.map Int.ofNat)).2 (by omega) (by omega) hp'
    have hR : (intsTo (K : Int).toNat).map ((N : Int) + ·) = ((oneTo K).map (N + ·)).map Int.ofNat := by
      rw [Int.toNat_natCast]; unfold intsTo; rw [List.map_map, List.map_map]; rfl
    have hL : intsTo (N : Int).toNat = (oneTo N).map Int.ofNat := by rw [Int.toNat_natCast]; rfl
    rw [hR, hL] at hb
    have so : ∀ n, (oneTo n).Pairwise (· < ·) := fun n => List.Pairwise.map _ (fun a b h => Nat.add_lt_add_right h 1) (List.pairwise_lt_range (n := n))
    have hd : EdgesDistinct G.edges := by
      unfold bipShift at e
      rw [if_neg (by omega), if_neg (by rintro ⟨x, hx, h⟩; have := hp' x hx; omega)] at e
      rw [← (M.pure_inj _ _).1 e]
      refine distinct_bipBase (by rw [hR, hL]; exact hb.nodup) ?_
      intro e he
      obtain ⟨u, hu, hm⟩ := List.mem_flatMap.1 he
      obtain ⟨i, hi, rfl⟩ := List.mem_map.1 hm
      refine ⟨hu, List.mem_map.2 ⟨1 + (i + u - 2) % K, mem_intsTo.2 ?_, by dsimp only; ring⟩⟩
      have h1 := Int.emod_nonneg (i + u - 2) (show (K : Int) ≠ 0 by omega)
      have h2 := Int.emod_lt_of_pos (i + u - 2) (show (0 : Int) < K by omega)
      omega
    have hB := Bip.of_int hb (so N) (List.Pairwise.map _ (fun a b h => Nat.add_lt_add_left h N) (so K)) hd
    refine .inr (.inr ⟨_, _, fun u v => u ∈ oneTo N ∧ v ∈ (oneTo K).map (N + ·) ∧ G.hasEdge (u : Int) v = true, G,
      ⟨hN, hK, hp, rfl, rfl, ?_⟩, e, hB, fun _ _ => Iff.rfl⟩)
    intro u v
    refine and_congr_right fun hu => and_congr_right fun hv => ?_
    obtain ⟨w, hw, rfl⟩ := List.mem_map.1 hv
    rw [mem_oneTo] at hu hw
    rw [show ((N + w : Nat) : Int) = (N : Int) + w by push_cast; rfl, (hE u (by omega) (by omega)).2 w (by omega) (by omega),
      show (N : Int) + w - N = w by ring]
    constructor
    · rintro ⟨p, hp, h⟩
      obtain ⟨q, hq, rfl⟩ := hpat.1 hp
      exact ⟨q, hq, h⟩
    · rintro ⟨q, hq, h⟩; exact ⟨q, hpat.2 ⟨q, hq, rfl⟩, h⟩
  · refine .inl ⟨fun L R E hD => hok ⟨hD.1, hD.2.1, hD.2.2.1⟩, (C74_shift N K (pattern.map Int.ofNat)).1 ?_⟩
    by_cases h1 : N < 1
    · exact .inl (by omega)
    · by_cases h2 : K < 1
      · exact .inr (.inl (by omega))
      · refine .inr (.inr ?_)
        by_contra hno
        refine hok ⟨by omega, by omega, fun p hp => ?_⟩
        by_contra hp'
        exact hno ⟨p, hpat.2 ⟨p, hp, rfl⟩, by omega⟩

theorem source_bcomplete (l r : Nat) : SourceOK (.bcomplete l r) := by
  have hR : (intsBelow r).map ((l : Int) + ·) = (rightSide l r).map Int.ofNat := by
    unfold intsBelow rightSide; rw [List.map_map, List.map_map]; rfl
  have hnd : (intsBelow l ++ (intsBelow r).map ((l : Int) + ·)).Nodup := by
    rw [hR]; unfold intsBelow; rw [← List.map_append]; exact List.Nodup.map Int.ofNat_injective (sides_nodup l r)
  have hes : ∀ e ∈ (intsBelow l).flatMap (fun u => ((intsBelow r).map ((l : Int) + ·)).map fun v => (u, v)), e.1 ∈ intsBelow l ∧ e.2 ∈ (intsBelow r).map ((l : Int) + ·) := by
    intro e he
    obtain ⟨u, hu, hm⟩ := List.mem_flatMap.1 he
    obtain ⟨v, hv, rfl⟩ := List.mem_map.1 hm
    exact ⟨hu, hv⟩
  obtain ⟨hb, hE⟩ := bipBase_addEdges hnd hes
  have hd := distinct_bipBase hnd hes
  have hb' := hb
  rw [hR] at hb' 
  have hB := Bip.of_int (L := List.range l) (R := rightSide l r) (by rw [← hR]; exact hb) (List.pairwise_lt_range) (rightSide_sorted l r) hd
  refine .inr (.inr ⟨List.range l, rightSide l r, fun u v => u ∈ List.range l ∧ v ∈ rightSide l r, _, ⟨rfl, rfl, fun _ _ => Iff.rfl⟩, rfl, hB, ?_⟩)
  intro u v
  constructor
  · rintro ⟨h1, h2⟩
    refine ⟨h1, h2, (hE _ _).2 (.inl (List.mem_flatMap.2 ⟨u, List.mem_map.2 ⟨u, h1, rfl⟩, List.mem_map.2 ⟨v, ?_, rfl⟩⟩))⟩
    rw [hR]; exact List.mem_map.2 ⟨v, h2, rfl⟩
  · rintro ⟨h1, h2, _⟩; exact ⟨h1, h2⟩

theorem source_kthlist {text : Str} (h : (BipSource.kthlist text).Legal) : SourceOK (.kthlist text) := by
  have h : ∀ n adj, KthText text n adj → ∀ a ∈ adj, ∀ b ∈ adj, a.1 ∉ b.2 := h
  by_cases hk : ∃ n adj, KthText text n adj
  · obtain ⟨n, adj, hk⟩ := hk
    have hs := h n adj hk
    have hr : InRange n adj := by obtain ⟨_, _, _, _, _, _, hr⟩ := hk; exact hr
    obtain ⟨G, eG, hcol⟩ := C71_kth_bipartite_sides hk hs
    rcases readKth_bipartite hk with ⟨_, e⟩ | ⟨st, e1, inv, e⟩
    · rw [eG] at e; simp at e
    · have eG' := (M.pure_inj _ _).1 (eG.symm.trans e)
      have hn : G.nodes = intsTo n := by rw [eG']; exact inv.k.nodes
      have hd : EdgesDistinct st.G.edges := by
        have := adjLoop_inv (bip := true) (fun adj st => KInv n false adj st ∧ EdgesDistinct st.G.edges) (n := n) (by
          rintro adj st a st' ⟨hk, hd⟩ hra e
          refine ⟨hk.step hra e, ?_⟩
          unfold adjStep at e
          obtain ⟨G, e1, e2⟩ := M.bind_eq_pure.1 e
          have e2 := ((M.pure_inj _ _).1 e2).symm
          rw [if_pos rfl] at e1
          have hG : G.nodes = st.G.nodes ∧ G.edges = st.G.edges ∧ G.directed = st.G.directed := by
            rcases recolor_spec st.G a.1 a.2 with ⟨d, _, _, h⟩ | ⟨_, h⟩
            · rw [h] at e1; rw [← (M.pure_inj _ _).1 e1]; exact ⟨rfl, rfl, rfl⟩
            · rw [h] at e1; simp at e1
          rw [e2]
          show EdgesDistinct (a.2.foldl (fun G s => G.addEdge s a.1) G).edges
          have : a.2.foldl (fun G s => G.addEdge s a.1) G = G.addEdges (a.2.map fun s => (s, a.1)) := by
            unfold Nx.addEdges; rw [List.foldl_map]
          rw [this]
          refine distinct_addEdges (by rw [hG.2.2]; exact hk.directed) (by rw [hG.2.1]; exact hd) ?_
          intro e he
          obtain ⟨s, hs, rfl⟩ := List.mem_map.1 he
          rw [hG.1, hk.nodes, mem_intsTo, mem_intsTo]
          exact ⟨hra.2 s hs, hra.1⟩) adj [] _ _ ⟨KInv.start n false, by simp [kthStart, EdgesDistinct]⟩ hr e1
        exact this.2
      classical
      let L : List Nat := (oneTo n).filter fun v : Nat => decide (Target adj v)
      let R : List Nat := (oneTo n).filter fun v : Nat => decide (¬ Target adj v)
      have mL : ∀ v : Nat, v ∈ L ↔ 1 ≤ v ∧ v ≤ n ∧ Target adj v := by
        intro v; simp only [L, List.mem_filter, mem_oneTo, decide_eq_true_eq]; tauto
      have mR : ∀ v : Nat, v ∈ R ↔ 1 ≤ v ∧ v ≤ n ∧ ¬ Target adj v := by
        intro v; simp only [R, List.mem_filter, mem_oneTo, decide_eq_true_eq]; tauto
      have so : (oneTo n).Pairwise (· < ·) := List.Pairwise.map _ (fun a b h => Nat.add_lt_add_right h 1) (List.pairwise_lt_range (n := n))
      have hnode : ∀ v : Nat, 1 ≤ v → v ≤ n → (v : Int) ∈ G.nodes := fun v h1 h2 => by rw [hn, mem_intsTo]; omega
      have hlisted : ∀ {s t : Int}, Listed adj s t → ∃ u ∈ L, ∃ v ∈ R, s = (v : Int) ∧ t = (u : Int) := by
        rintro s t ⟨a, ha, rfl, hs'⟩
        have h1 := (hr a ha).1
        have h2 := (hr a ha).2 s hs'
        refine ⟨a.1.toNat, (mL _).2 ⟨by omega, by omega, a, ha, by omega⟩, s.toNat, (mR _).2 ⟨by omega, by omega, ?_⟩, by omega, by omega⟩
        rintro ⟨b, hb, e⟩
        exact hs b hb a ha (by rw [← e, Int.toNat_of_nonneg (by omega)]; exact hs')
      have hB : Bip L R G := by
        refine ⟨by rw [eG']; exact inv.k.directed, ?_, so.filter _, so.filter _, ?_, ?_, ?_, by rw [eG']; exact hd, ?_⟩
        · rw [hn]
          unfold intsTo
          refine List.Perm.map _ ?_
          have := List.filter_append_perm (fun v : Nat => decide (Target adj v)) (oneTo n)
          simpa [L, R] using this.symm
        · intro v h1 h2; exact ((mR v).1 h2).2.2 ((mL v).1 h1).2.2
        · intro v hv
          obtain ⟨h1, h2, h3⟩ := (mL v).1 hv
          exact (hcol v (hnode v h1 h2)).2 h3
        · intro v hv
          obtain ⟨h1, h2, h3⟩ := (mR v).1 hv
          have hc := (hcol v (hnode v h1 h2)).not.2 h3
          have hsome : (G.color v).isSome = true := by
            have hm := hnode v h1 h2
            rw [eG'] at hm ⊢
            dsimp only at hm ⊢
            rw [if_pos hm]; rfl
          match hg : G.color v with
          | some true => rfl
          | some false => exact absurd hg hc
          | none => rw [hg] at hsome; cases hsome
        · intro e he
          rw [eG'] at he
          obtain ⟨u, hu, v, hv, e1, e2⟩ := hlisted (inv.k.listed e he)
          exact ⟨u, hu, v, hv, .inr (Prod.ext e1 e2)⟩
      refine .inr (.inr ⟨L, R, fun u v => Listed adj v u, G, ⟨n, adj, hk, so.filter _, so.filter _, mL, mR, fun _ _ => Iff.rfl⟩, eG, hB, ?_⟩)
      intro u v
      have hhas : G.hasEdge (u : Int) v = true ↔ Listed adj u v ∨ Listed adj v u := by
        rw [eG']
        show st.G.hasEdge u v = true ↔ _
        rw [inv.k.edges]; simp
      rw [hhas]
      constructor
      · intro hl
        obtain ⟨u', hu, v', hv, e1, e2⟩ := hlisted hl
        have e1 : v = v' := by exact_mod_cast e1
        have e2 : u = u' := by exact_mod_cast e2
        exact ⟨e2 ▸ hu, e1 ▸ hv, .inr hl⟩
      · rintro ⟨h1, h2, h3 | h3⟩
        · obtain ⟨u', hu, v', hv, e1, e2⟩ := hlisted h3
          have : v = u' := by exact_mod_cast e2
          subst this
          exact absurd h2 (hB.disjoint _ hu)
        · exact h3
  · refine .inl ⟨?_, C71_kth_reject .bipartite hk⟩
    rintro L R E ⟨n, adj, h', _⟩
    exact hk ⟨n, adj, h'⟩

theorem source_ok {s : BipSource} (h : s.Legal) : SourceOK s := by
  cases s with
  | bp l r G => exact (source_nx h).1
  | bm l r m G => exact (source_nx h).2 m
  | bd l r d smp => exact source_bd h
  | bregular l r d pick depth => exact source_bregular h
  | bshift N K pattern => exact source_bshift N K pattern
  | bcomplete l r => exact source_bcomplete l r
  | kthlist text => exact source_kthlist h

theorem sorted_ext {l m : List Nat} (h1 : l.Pairwise (· < ·)) (h2 : m.Pairwise (· < ·)) (h : ∀ v, v ∈ l ↔ v ∈ m) : l = m :=
  List.Perm.eq_of_pairwise (le := (· ≤ ·)) (fun a b _ _ h1 h2 => Nat.le_antisymm h1 h2) (h1.imp Nat.le_of_lt) (h2.imp Nat.le_of_lt)
    ((List.perm_ext_iff_of_nodup (h1.imp fun h => Nat.ne_of_lt h) (h2.imp fun h => Nat.ne_of_lt h)).2 h)

theorem Describes.unique {s : BipSource} {L R L' R' : List Nat} {E E' : Nat → Nat → Prop} (h : s.Describes L R E) (h' : s.Describes L' R' E') : L = L' ∧ R = R' := by
  cases s with
  | bp l r G => exact ⟨h.1.trans h'.1.symm, h.2.1.trans h'.2.1.symm⟩
  | bm l r m G => exact ⟨h.1.trans h'.1.symm, h.2.1.trans h'.2.1.symm⟩
  | bd l r d smp => exact ⟨h.1.trans h'.1.symm, h.2.1.trans h'.2.1.symm⟩
  | bregular l r d pick depth => exact ⟨h.2.1.trans h'.2.1.symm, h.2.2.1.trans h'.2.2.1.symm⟩
  | bshift N K pattern => exact ⟨h.2.2.2.1.trans h'.2.2.2.1.symm, h.2.2.2.2.1.trans h'.2.2.2.2.1.symm⟩
  | bcomplete l r => exact ⟨h.1.trans h'.1.symm, h.2.1.trans h'.2.1.symm⟩
  | kthlist text =>
    obtain ⟨n, adj, hk, a1, a2, a3, a4, _⟩ := h
    obtain ⟨n', adj', hk', b1, b2, b3, b4, _⟩ := h'
    obtain ⟨rfl, rfl⟩ := KthText.unique hk hk'
    exact ⟨sorted_ext a1 b1 fun v => (a3 v).trans (b3 v).symm, sorted_ext a2 b2 fun v => (a4 v).trans (b4 v).symm⟩

theorem Bip.mem_side_false {L R : List Nat} {G : Nx Int} (h : Bip L R G) {x : Int} : x ∈ G.side false ↔ ∃ u ∈ L, (u : Int) = x := by
  rw [h.side_perm.1.mem_iff, List.mem_map]; rfl

theorem Bip.mem_side_true {L R : List Nat} {G : Nx Int} (h : Bip L R G) {x : Int} : x ∈ G.side true ↔ ∃ u ∈ R, (u : Int) = x := by
  rw [h.side_perm.2.mem_iff, List.mem_map]; rfl

theorem Bip.total {L R : List Nat} {G : Nx Int} (h : Bip L R G) : totalEdges G = L.length * R.length := by
  unfold totalEdges
  rw [if_pos (labelled_iff.2 h.labelled), h.side_perm.1.length_eq, h.side_perm.2.length_eq, List.length_map, List.length_map]

/-- `--plantbiclique`. -/
theorem bip_planted {a : BipArgs} (ha : a.Legal) {L R : List Nat} {E : Nat → Nat → Prop} {G : Nx Int} (hd : a.source.Describes L R E) (e : a.source.get = pure G)
    (hG : Bip L R G) (hE : ∀ u v : Nat, E u v ↔ u ∈ L ∧ v ∈ R ∧ G.hasEdge (u : Int) v = true) :
    ((¬ ∃ h, a.Plants h) ∧ a.planted = raise .valueError) ∨ ∃ H, a.planted = pure H ∧ Bip L R H ∧ a.Plants H.toBip := by
  unfold BipArgs.planted
  rw [e, M.pure_bind]
  cases hp : a.plantbiclique with
  | none =>
    refine .inr ⟨G, rfl, hG, L, R, E, hd, hG.toBip_ordered, hG.toBip_nodup, hG.toBip_left, hG.toBip_right, by simp [hp], ?_⟩
    intro u v
    rw [hG.toBip_mem, hE]
    simp [hp]
  | some p =>
    have h1 : (G.side false).length = L.length := by rw [hG.side_perm.1.length_eq, List.length_map]
    have h2 : (G.side true).length = R.length := by rw [hG.side_perm.2.length_eq, List.length_map]
    by_cases hfit : p.1 ≤ L.length ∧ p.2 ≤ R.length
    · right
      obtain ⟨⟨l1, l2, l3⟩, r1, r2, r3⟩ := ha.biclique p hp G e (by omega) (by omega)
      have hends : ∀ e ∈ a.left.flatMap (fun u => a.right.map fun v => (u, v)), ∃ u ∈ L, ∃ v ∈ R, e = ((u : Int), (v : Int)) := by
        intro e he
        obtain ⟨x, hx, hm⟩ := List.mem_flatMap.1 he
        obtain ⟨y, hy, rfl⟩ := List.mem_map.1 hm
        obtain ⟨u, hu, rfl⟩ := hG.mem_side_false.1 (l3 x hx)
        obtain ⟨v, hv, rfl⟩ := hG.mem_side_true.1 (r3 y hy)
        exact ⟨u, hu, v, hv, rfl⟩
      have hH : Bip L R (G.addEdges (a.left.flatMap fun u => a.right.map fun v => (u, v))) := Bip.addEdges hG hends
      refine ⟨_, ?_, hH, L, R, E, hd, hH.toBip_ordered, hH.toBip_nodup, hH.toBip_left, hH.toBip_right, by rintro q hq; rw [hp] at hq; cases hq; exact hfit, ?_⟩
      · dsimp only
        unfold plantBiclique
        rw [if_neg (by simp [labelled_iff.2 hG.labelled]), if_neg (by omega)]
      · intro u v
        rw [hH.toBip_mem, (gext_addEdges G _).edges, hE, hG.undirected]
        simp only [List.mem_flatMap, List.mem_map, Prod.mk.injEq, true_and, hp, ne_eq, reduceCtorEq, not_false_eq_true]
        constructor
        · rintro ⟨hu, hv, h | ⟨x, hx, y, hy, rfl, rfl⟩ | ⟨x, hx, y, hy, rfl, rfl⟩⟩
          · exact .inl ⟨hu, hv, h⟩
          · exact .inr ⟨hx, hy⟩
          · obtain ⟨w, hw, e⟩ := hG.mem_side_false.1 (l3 _ hx)
            have : w = v := by exact_mod_cast e
            exact absurd hv (hG.disjoint _ (this ▸ hw))
        · rintro (⟨hu, hv, h⟩ | ⟨hu, hv⟩)
          · exact ⟨hu, hv, .inl h⟩
          · obtain ⟨w, hw, e⟩ := hG.mem_side_false.1 (l3 _ hu)
            obtain ⟨z, hz, e'⟩ := hG.mem_side_true.1 (r3 _ hv)
            have e1 : w = u := by exact_mod_cast e
            have e2 : z = v := by exact_mod_cast e'
            exact ⟨e1 ▸ hw, e2 ▸ hz, .inr (.inl ⟨_, hu, _, hv, rfl, rfl⟩)⟩
    · left
      constructor
      · rintro ⟨h, L', R', E', hd', _, _, _, _, hf, _⟩
        obtain ⟨rfl, rfl⟩ := Describes.unique hd hd'
        exact hfit (hf p hp)
      · dsimp only
        unfold plantBiclique
        rw [if_neg (by simp [labelled_iff.2 hG.labelled]), if_pos (by omega)]

/-- **C86, the graph.** The bipartite graph a sub-command works on.  `ValueError`: nothing is described by the options, or the biclique is too large for the sides,
or there is no room for the edges to add.  Otherwise a graph as ordered, except that `--bregular` may end in `RecursionError` and `--addedges` in `RuntimeError`. -/
theorem C86_obtain_bipartite {a : BipArgs} (ha : a.Legal) :
    (((¬ ∃ h, a.Plants h) ∨ a.NoRoom) ∧ obtainBip a = raise .valueError) ∨
    (∃ G, obtainBip a = pure G ∧ a.Gives G.toBip) ∨
    (a.addedges ≠ none ∧ (∃ h, a.Plants h) ∧ obtainBip a = raise .runtimeError) ∨
    (a.source.IsRegular ∧ obtainBip a = raise .recursionError) := by
  rcases source_ok ha.source with ⟨hno, e⟩ | ⟨e, hr⟩ | ⟨L, R, E, G, hd, e, hG, hE⟩
  · refine .inl ⟨.inl ?_, ?_⟩
    · rintro ⟨h, L, R, E, hd, _⟩; exact hno L R E hd
    · unfold obtainBip BipArgs.planted; rw [e, M.raise_bind, M.raise_bind]
  · refine .inr (.inr (.inr ⟨hr, ?_⟩))
    unfold obtainBip BipArgs.planted; rw [e, M.raise_bind, M.raise_bind]
  · rcases bip_planted ha hd e hG hE with ⟨hno, e1⟩ | ⟨H, e1, hH, hP⟩
    · exact .inl ⟨.inl hno, by unfold obtainBip; rw [e1, M.raise_bind]⟩
    · unfold obtainBip
      rw [e1, M.pure_bind]
      cases hk : a.addedges with
      | none =>
        exact .inr (.inl ⟨H, rfl, H.toBip, hP, hH.toBip_ordered, hH.toBip_nodup, rfl, rfl, fun _ _ => Iff.rfl, by rw [hk]; rintro _ ⟨⟩⟩)
      | some k =>
        have hdraw := ha.edges k hk H e1
        have hadd := C75_add_edges hH.simple hdraw
        have hcount := count_available hH.simple hdraw.order
        rw [hH.total] at hcount
        by_cases hm : ∃ es, MissingEdges H k es
        · rcases hadd.2 hm with e2 | ⟨K, e2, hs, hn, hc, hl, hmono⟩
          · exact .inr (.inr (.inl ⟨by simp, ⟨_, hP⟩, e2⟩))
          · have hK : Bip L R K := by
              refine ⟨hs.undirected, by rw [hn]; exact hH.nodes, hH.sortedL, hH.sortedR, hH.disjoint, by rw [hc]; exact hH.left, by rw [hc]; exact hH.right, hs.distinct, ?_⟩
              have hlab : ∀ x ∈ K.nodes, K.color x ≠ none := by rw [hn, hc]; exact hH.labelled
              have hj : ∀ x y, K.Joinable x y → ∃ u ∈ L, ∃ v ∈ R, x = (u : Int) ∧ y = (v : Int) := by
                rintro x y ⟨hx, hy, hcol, _⟩
                obtain ⟨c1, c2⟩ := hcol hlab
                rw [hn] at hx hy
                rw [hc] at c1 c2
                obtain ⟨u, hu, e1⟩ := hH.mem_side_false.1 (mem_side.2 ⟨hx, c1⟩)
                obtain ⟨v, hv, e2⟩ := hH.mem_side_true.1 (mem_side.2 ⟨hy, c2⟩)
                exact ⟨u, hu, v, hv, e1.symm, e2.symm⟩
              intro e he
              rcases hs.ends e he with h | h
              · obtain ⟨u, hu, v, hv, e1, e2⟩ := hj _ _ h
                exact ⟨u, hu, v, hv, .inl (Prod.ext e1 e2)⟩
              · obtain ⟨u, hu, v, hv, e1, e2⟩ := hj _ _ h
                exact ⟨u, hu, v, hv, .inr (Prod.ext e2 e1)⟩
            refine .inr (.inl ⟨K, e2, H.toBip, hP, hK.toBip_ordered, hK.toBip_nodup, by rw [hK.toBip_left, hH.toBip_left], by rw [hK.toBip_right, hH.toBip_right],
              by rw [hk]; rintro ⟨⟩, ?_⟩)
            intro k' hk'
            rw [hk] at hk'
            cases hk'
            refine ⟨?_, by rw [hK.toBip_length, hH.toBip_length, hl]⟩
            rintro ⟨u, v⟩ he
            rw [hH.toBip_mem] at he
            exact hK.toBip_mem.2 ⟨he.1, he.2.1, hmono _ _ he.2.2⟩
        · refine .inl ⟨.inr ⟨H.toBip, k, hP, hk, ?_⟩, hadd.1.2 hm⟩
          rw [exists_missing hH.simple hdraw.order] at hm
          rw [hH.toBip_left, hH.toBip_right, hH.toBip_length]
          omega

end NDP.Cnfgen
