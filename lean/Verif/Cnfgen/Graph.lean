import Verif.Cnfgen.Mapping
import Mathlib.Logic.Relation
/-
  Simple graphs (`graphs.py` 433-473), and list facts used by the graph families.
-/
namespace NDP.Cnfgen
open NDP

/-- A simple graph as `cnfformula` sees it: `verts` is `enumerate_vertices(G)`, `edges` is `list(G.edges())` (each edge once, in
either direction).  Simplified: vertices are numbers and the vertex order is increasing (`ordered_vertices` absent, or set by the
readers, which number the vertices). -/
structure Graph where
  verts : List Nat
  edges : List (Nat × Nat)
  deriving Repr

namespace Graph
/-- `G.has_edge(u,v)`. -/
def hasEdge (g : Graph) (u v : Nat) : Bool := decide ((u, v) ∈ g.edges ∨ (v, u) ∈ g.edges)
/-- `neighbors(G,v)` (`graphs.py` 463-473): sorted. -/
def neighbors (g : Graph) (v : Nat) : List Nat := g.verts.filter fun u => g.hasEdge u v

/-- `networkx.complete_graph(n)`. -/
def complete (n : Nat) : Graph := ⟨List.range n, pairs (List.range n)⟩

/-- What a simple graph is: vertices once and in order, edges between different vertices, each edge once. -/
structure Wf (g : Graph) : Prop where
  sorted : g.verts.Pairwise (· < ·)
  ends : ∀ e ∈ g.edges, e.1 ∈ g.verts ∧ e.2 ∈ g.verts ∧ e.1 ≠ e.2
  nodup : g.edges.Nodup
  once : ∀ e ∈ g.edges, (e.2, e.1) ∉ g.edges

theorem hasEdge_iff {g : Graph} {u v : Nat} : g.hasEdge u v = true ↔ (u, v) ∈ g.edges ∨ (v, u) ∈ g.edges := by simp [hasEdge]
theorem hasEdge_comm {g : Graph} {u v : Nat} : g.hasEdge u v = g.hasEdge v u := by simp [hasEdge, or_comm]
theorem Wf.hasEdge_ne {g : Graph} (h : g.Wf) {u v : Nat} (he : g.hasEdge u v = true) : u ≠ v := by
  rcases hasEdge_iff.1 he with he | he
  · exact (h.ends _ he).2.2
  · exact (h.ends _ he).2.2.symm
theorem Wf.hasEdge_mem {g : Graph} (h : g.Wf) {u v : Nat} (he : g.hasEdge u v = true) : u ∈ g.verts ∧ v ∈ g.verts := by
  rcases hasEdge_iff.1 he with he | he
  · exact ⟨(h.ends _ he).1, (h.ends _ he).2.1⟩
  · exact ⟨(h.ends _ he).2.1, (h.ends _ he).1⟩
theorem Wf.verts_nodup {g : Graph} (h : g.Wf) : g.verts.Nodup := h.sorted.imp (fun h => Nat.ne_of_lt h)
theorem mem_neighbors {g : Graph} {u v : Nat} : u ∈ g.neighbors v ↔ u ∈ g.verts ∧ g.hasEdge u v = true := by simp [neighbors]
end Graph

/-! ### Lists -/

theorem sorted_pair {l : List Nat} (h : l.Pairwise (· < ·)) {x y : Nat} : [x, y].Sublist l ↔ x ∈ l ∧ y ∈ l ∧ x < y := by
  constructor
  · intro hs
    have := h.sublist hs
    exact ⟨hs.subset (by simp), hs.subset (by simp), by simpa using this⟩
  · rintro ⟨hx, hy, hlt⟩
    induction l with
    | nil => simp at hx
    | cons a l ih =>
      rw [List.pairwise_cons] at h
      rcases List.mem_cons.1 hx with rfl | hx'
      · rcases List.mem_cons.1 hy with rfl | hy'
        · omega
        · exact List.Sublist.cons_cons _ (List.singleton_sublist.2 hy')
      · rcases List.mem_cons.1 hy with rfl | hy'
        · have := h.1 x hx'; omega
        · exact (ih h.2 hx' hy').cons _

theorem mem_pairs_sorted {l : List Nat} (h : l.Pairwise (· < ·)) {x y : Nat} : (x, y) ∈ pairs l ↔ x ∈ l ∧ y ∈ l ∧ x < y :=
  mem_pairs.trans (sorted_pair h)

theorem mem_triples {A : Type} : ∀ {l : List A} {x y z : A}, (x, y, z) ∈ triples l ↔ [x, y, z].Sublist l
  | [], x, y, z => by simp [triples]
  | w :: ws, x, y, z => by
    simp only [triples, List.mem_append, List.mem_map, Prod.mk.injEq, mem_triples (l := ws), Prod.exists, mem_pairs]
    constructor
    · rintro (⟨a, b, h, rfl, rfl, rfl⟩ | h)
      · exact h.cons_cons _
      · exact h.cons _
    · intro h
      cases h with
      | cons _ h => exact .inr h
      | cons_cons _ h => exact .inl ⟨_, _, h, rfl, rfl, rfl⟩

theorem mem_triples_sorted {l : List Nat} (h : l.Pairwise (· < ·)) {x y z : Nat} :
    (x, y, z) ∈ triples l ↔ x ∈ l ∧ y ∈ l ∧ z ∈ l ∧ x < y ∧ y < z := by
  rw [mem_triples]
  constructor
  · intro hs
    have := h.sublist hs
    simp at this
    exact ⟨hs.subset (by simp), hs.subset (by simp), hs.subset (by simp), this.1.1, this.2⟩
  · rintro ⟨hx, hy, hz, h1, h2⟩
    induction l with
    | nil => simp at hx
    | cons a l ih =>
      rw [List.pairwise_cons] at h
      have key : ∀ b, b ∈ a :: l → a < b → b ∈ l := by
        intro b hb hab
        rcases List.mem_cons.1 hb with rfl | hb
        · omega
        · exact hb
      rcases List.mem_cons.1 hx with rfl | hx
      · exact List.Sublist.cons_cons _ ((sorted_pair h.2).2 ⟨key y hy h1, key z hz (by omega), h2⟩)
      · have := h.1 x hx
        exact (ih h.2 hx (key y hy (by omega)) (key z hz (by omega))).cons _

theorem mem_picks {A : Type} : ∀ {l : List A}, l.Nodup → ∀ {x : A} {r : List A}, (x, r) ∈ picks l →
    x ∈ l ∧ (∀ y, y ∈ r ↔ y ∈ l ∧ y ≠ x) ∧ r.Nodup
  | [], _, x, r, h => by simp [picks] at h
  | a :: l, hn, x, r, h => by
    rw [List.nodup_cons] at hn
    simp only [picks, List.mem_cons, Prod.mk.injEq, List.mem_map, Prod.exists] at h
    rcases h with ⟨rfl, rfl⟩ | ⟨b, s, hb, rfl, rfl⟩
    · refine ⟨by simp, fun y => ?_, hn.2⟩
      constructor
      · intro hy; exact ⟨by simp [hy], by rintro rfl; exact hn.1 hy⟩
      · rintro ⟨hy, hne⟩
        rcases List.mem_cons.1 hy with h | h
        · exact absurd h hne
        · exact h
    · obtain ⟨h1, h2, h3⟩ := mem_picks hn.2 hb
      refine ⟨by simp [h1], fun y => ?_, ?_⟩
      · simp only [List.mem_cons, h2]
        constructor
        · rintro (rfl | ⟨h, hne⟩)
          · exact ⟨.inl rfl, by rintro rfl; exact hn.1 h1⟩
          · exact ⟨.inr h, hne⟩
        · rintro ⟨rfl | h, hne⟩
          · exact .inl rfl
          · exact .inr ⟨h, hne⟩
      · rw [List.nodup_cons]
        exact ⟨fun h => hn.1 ((h2 a).1 h).1, h3⟩

theorem exists_picks {A : Type} : ∀ {l : List A} {x : A}, x ∈ l → ∃ r, (x, r) ∈ picks l
  | a :: l, x, h => by
    simp only [picks, List.mem_cons, Prod.mk.injEq, List.mem_map, Prod.exists]
    rcases List.mem_cons.1 h with rfl | h
    · exact ⟨l, .inl ⟨rfl, rfl⟩⟩
    · obtain ⟨r, hr⟩ := exists_picks h
      exact ⟨a :: r, .inr ⟨x, r, hr, rfl, rfl⟩⟩

theorem mem_permPairs {A : Type} {l : List A} (hn : l.Nodup) {x y : A} : (x, y) ∈ permPairs l ↔ x ∈ l ∧ y ∈ l ∧ x ≠ y := by
  simp only [permPairs, List.mem_flatMap, List.mem_map, Prod.mk.injEq, Prod.exists]
  constructor
  · rintro ⟨a, r, h, b, hb, rfl, rfl⟩
    obtain ⟨h1, h2, _⟩ := mem_picks hn h
    exact ⟨h1, ((h2 b).1 hb).1, ((h2 b).1 hb).2.symm⟩
  · rintro ⟨hx, hy, hne⟩
    obtain ⟨r, hr⟩ := exists_picks hx
    exact ⟨x, r, hr, y, ((mem_picks hn hr).2.1 y).2 ⟨hy, hne.symm⟩, rfl, rfl⟩

theorem mem_permTriples {A : Type} {l : List A} (hn : l.Nodup) {x y z : A} :
    (x, y, z) ∈ permTriples l ↔ x ∈ l ∧ y ∈ l ∧ z ∈ l ∧ x ≠ y ∧ y ≠ z ∧ x ≠ z := by
  simp only [permTriples, List.mem_flatMap, List.mem_map, Prod.mk.injEq, Prod.exists]
  constructor
  · rintro ⟨a, r, h, b, c, hb, rfl, rfl, rfl⟩
    obtain ⟨h1, h2, h3⟩ := mem_picks hn h
    obtain ⟨hb, hc, hne⟩ := (mem_permPairs h3).1 hb
    exact ⟨h1, ((h2 b).1 hb).1, ((h2 c).1 hc).1, ((h2 b).1 hb).2.symm, hne, ((h2 c).1 hc).2.symm⟩
  · rintro ⟨hx, hy, hz, h1, h2, h3⟩
    obtain ⟨r, hr⟩ := exists_picks hx
    obtain ⟨_, m2, m3⟩ := mem_picks hn hr
    exact ⟨x, r, hr, y, z, (mem_permPairs m3).2 ⟨(m2 y).2 ⟨hy, h1.symm⟩, (m2 z).2 ⟨hz, h3.symm⟩, h2⟩, rfl, rfl, rfl⟩

/-- The loops `add_variable`, then `add_clause(…, strict=True)`, on a new formula. -/
def CNF.ofPartsStrict {V : Type} [DecidableEq V] (vs : List V) (cs : List (List (Lit V))) : M (CNF V) :=
  (({} : CNF V).addVariables vs).addAll true cs

theorem CNF.ofPartsStrict_ok {V : Type} [DecidableEq V] {vs : List V} {cs : List (List (Lit V))}
    (hn : ∀ c ∈ cs, (c.map Prod.snd).Nodup) (h : ∀ c ∈ cs, ∀ l ∈ c, l.2 ∈ vs) :
    ∃ F, CNF.ofPartsStrict vs cs = pure F ∧ F.Coh cs := by
  obtain ⟨G, h1, h2, _⟩ := CNF.addAll_ok (strict := true) (ds := cs) (CNF.coh_empty.addVariables (vs := vs)) hn
    (fun _ c hc l hl => CNF.mem_addVariables.2 (.inr (h c hc l hl)))
  exact ⟨G, h1, by simpa using h2⟩

/-- The loop `add_clause(…)` with automatic variables, on a new formula. -/
def CNF.ofClauses {V : Type} [DecidableEq V] (cs : List (List (Lit V))) : M (CNF V) := ({} : CNF V).addAll false cs

theorem CNF.ofClauses_ok {V : Type} [DecidableEq V] {cs : List (List (Lit V))} (hn : ∀ c ∈ cs, (c.map Prod.snd).Nodup) :
    ∃ F, CNF.ofClauses cs = pure F ∧ F.Coh cs := by
  obtain ⟨G, h1, h2, _⟩ := CNF.addAll_ok (strict := false) (ds := cs) CNF.coh_empty hn (by simp)
  exact ⟨G, h1, by simpa using h2⟩

end NDP.Cnfgen
