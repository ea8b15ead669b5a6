import Verif.Cnfgen.Isomorphism
import Mathlib.Data.Fintype.EquivFin
import Mathlib.Order.WellFounded
/-
  Directed graphs (`graphs.py` 377-398, 1073-1132).
-/
namespace NDP.Cnfgen
open NDP

/-- A directed graph: `verts` is `enumerate_vertices(D)` (any order), `edges` are the pairs `(source, target)`. -/
structure Digraph (V : Type) where
  verts : List V
  edges : List (V × V)
  deriving Repr

namespace Digraph
variable {V : Type} [DecidableEq V]

/-- `sorted(digraph.predecessors(v), key=lambda x: position[x])` (`families/pebbling.py` 69, 238). -/
def preds (g : Digraph V) (v : V) : List V := g.verts.filter fun p => decide ((p, v) ∈ g.edges)

/-- `digraph.out_degree(v)==0`. -/
def isSink (g : Digraph V) (v : V) : Bool := decide (∀ w ∈ g.verts, (v, w) ∉ g.edges)

/-- Removing, `n` times, all vertices without a predecessor among those left; is nothing left? -/
def peel (g : Digraph V) : Nat → List V → Bool
  | 0, l => l.isEmpty
  | n + 1, l => peel g n (l.filter fun v => decide (∃ p ∈ l, (p, v) ∈ g.edges))

/-- `graphs.py` 377-398 (`is_dag`) through `networkx.is_directed_acyclic_graph`, which looks for a topological order by removing
vertices without predecessors (library; that it is right is the assumption, and what the model computes is shown to be right below). -/
def isDag (g : Digraph V) : Bool := g.peel g.verts.length g.verts

/-- Each vertex once, edges between vertices. -/
structure Wf (g : Digraph V) : Prop where
  nodup : g.verts.Nodup
  ends : ∀ e ∈ g.edges, e.1 ∈ g.verts ∧ e.2 ∈ g.verts

/-- No walk along edges returns to its start. -/
def Acyclic (g : Digraph V) : Prop := ∀ v, ¬ Relation.TransGen (fun a b => (a, b) ∈ g.edges) v v

theorem mem_preds {g : Digraph V} (hg : g.Wf) {p v : V} : p ∈ g.preds v ↔ (p, v) ∈ g.edges := by
  simp only [preds, List.mem_filter, decide_eq_true_eq]
  exact ⟨fun h => h.2, fun h => ⟨(hg.ends _ h).1, h⟩⟩

/-- Among finitely many vertices, one has no predecessor. -/
theorem Acyclic.exists_source {g : Digraph V} (h : g.Acyclic) {l : List V} (hl : l ≠ []) : ∃ v ∈ l, ∀ p ∈ l, (p, v) ∉ g.edges := by
  let r : {x // x ∈ l} → {x // x ∈ l} → Prop := fun a b => Relation.TransGen (fun a b => (a, b) ∈ g.edges) a.1 b.1
  haveI : Finite {x // x ∈ l} := List.finite_toSet l
  haveI : IsTrans _ r := ⟨fun _ _ _ a b => a.trans b⟩
  haveI : Std.Irrefl r := ⟨fun a => h a.1⟩
  have wf : WellFounded r := Finite.wellFounded_of_trans_of_irrefl r
  obtain ⟨x, hx⟩ := List.exists_mem_of_ne_nil l hl
  obtain ⟨m, _, hm⟩ := wf.has_min Set.univ ⟨⟨x, hx⟩, trivial⟩
  exact ⟨m.1, m.2, fun p hp he => hm ⟨p, hp⟩ trivial (.single he)⟩

theorem Acyclic.exists_sink {g : Digraph V} (h : g.Acyclic) {l : List V} (hl : l ≠ []) : ∃ v ∈ l, ∀ p ∈ l, (v, p) ∉ g.edges := by
  have hr : (⟨g.verts, g.edges.map Prod.swap⟩ : Digraph V).Acyclic := by
    intro v hv
    have : ∀ a b, Relation.TransGen (fun a b => (a, b) ∈ g.edges.map Prod.swap) a b → Relation.TransGen (fun a b => (a, b) ∈ g.edges) b a := by
      intro a b hab
      induction hab with
      | single h1 => exact .single (by simpa using h1)
      | tail _ h1 ih => exact .head (by simpa using h1) ih
    exact h v (this v v hv)
  obtain ⟨v, hv, hp⟩ := hr.exists_source hl
  exact ⟨v, hv, fun p hpl he => hp p hpl (by simpa using he)⟩

theorem peel_of_acyclic {g : Digraph V} (h : g.Acyclic) : ∀ (n : Nat) (l : List V), l.length ≤ n → g.peel n l = true
  | 0, l, hl => by
    rw [List.length_eq_zero_iff.1 (Nat.le_zero.1 hl)]; rfl
  | n + 1, l, hl => by
    rw [peel]
    refine peel_of_acyclic h n _ ?_
    by_cases hn : l = []
    · subst hn; simp
    · obtain ⟨v, hv, hp⟩ := h.exists_source hn
      have : (l.filter fun v => decide (∃ p ∈ l, (p, v) ∈ g.edges)).length < l.length := by
        refine (List.length_filter_lt_length_iff_exists).2 ⟨v, hv, ?_⟩
        simp only [decide_eq_true_eq, not_exists, not_and]
        exact hp
      omega

theorem acyclic_of_peel {g : Digraph V} : ∀ (n : Nat) (l : List V), g.peel n l = true →
    ∀ v ∈ l, ¬ ∃ C : V → Prop, C v ∧ ∀ x, C x → x ∈ l ∧ ∃ p, C p ∧ (p, x) ∈ g.edges
  | 0, l, h, v, hv, _ => by
    have : l = [] := by simpa [peel] using h
    simp [this] at hv
  | n + 1, l, h, v, hv, ⟨C, h1, h2⟩ => by
    rw [peel] at h
    have key : ∀ x, C x → x ∈ l.filter fun v => decide (∃ p ∈ l, (p, v) ∈ g.edges) := by
      intro x hx
      obtain ⟨p, hp, he⟩ := (h2 x hx).2
      exact List.mem_filter.2 ⟨(h2 x hx).1, by simpa using ⟨p, (h2 p hp).1, he⟩⟩
    exact acyclic_of_peel n _ h v (key v h1) ⟨C, h1, fun x hx => ⟨key x hx, (h2 x hx).2⟩⟩

/-- The test is right. -/
theorem isDag_iff {g : Digraph V} (hg : g.Wf) : g.isDag = true ↔ g.Acyclic := by
  constructor
  · intro h v hv
    have hpred : ∀ x, Relation.TransGen (fun a b => (a, b) ∈ g.edges) x x → x ∈ g.verts ∧
        ∃ p, Relation.TransGen (fun a b => (a, b) ∈ g.edges) p p ∧ (p, x) ∈ g.edges := by
      intro x hx
      obtain ⟨p, h1, h2⟩ := Relation.TransGen.tail'_iff.1 hx
      exact ⟨(hg.ends _ h2).2, p, Relation.TransGen.head' h2 h1, h2⟩
    exact acyclic_of_peel _ _ h v (hpred v hv).1 ⟨fun x => Relation.TransGen (fun a b => (a, b) ∈ g.edges) x x, hv, hpred⟩
  · intro h; exact peel_of_acyclic h _ _ le_rfl

theorem isSink_iff {g : Digraph V} (hg : g.Wf) {v : V} : g.isSink v = true ↔ ∀ w, (v, w) ∉ g.edges := by
  simp only [isSink, decide_eq_true_eq]
  exact ⟨fun h w he => h w (hg.ends _ he).2 he, fun h w _ => h w⟩

/-- Every acyclic graph with a vertex has a sink. -/
theorem exists_isSink {g : Digraph V} (hg : g.Wf) (ha : g.Acyclic) (h : g.verts ≠ []) : ∃ v ∈ g.verts, g.isSink v = true := by
  obtain ⟨v, hv, hs⟩ := ha.exists_sink h
  exact ⟨v, hv, (isSink_iff hg).2 fun w he => hs w (hg.ends _ he).2 he⟩

/-- Induction along the edges. -/
theorem dag_induction {g : Digraph V} (hg : g.Wf) (ha : g.Acyclic) {P : V → Prop}
    (step : ∀ v ∈ g.verts, (∀ p, (p, v) ∈ g.edges → P p) → P v) : ∀ v ∈ g.verts, P v := by
  classical
  by_contra hcon
  have hne : g.verts.filter (fun v => decide (¬ P v)) ≠ [] := by
    intro he
    refine hcon fun v hv => ?_
    by_contra hp
    have : v ∈ g.verts.filter fun v => decide (¬ P v) := List.mem_filter.2 ⟨hv, by simpa using hp⟩
    rw [he] at this; simp at this
  obtain ⟨v, hv, hs⟩ := ha.exists_source hne
  rw [List.mem_filter, decide_eq_true_eq] at hv
  refine hv.2 (step v hv.1 fun p hp => ?_)
  by_contra hpp
  exact hs p (List.mem_filter.2 ⟨(hg.ends _ hp).1, by simpa using hpp⟩) hp

theorem acyclic_of_rank {g : Digraph V} (rank : V → Nat) (h : ∀ e ∈ g.edges, rank e.1 < rank e.2) : g.Acyclic := by
  intro v hv
  have : ∀ a b, Relation.TransGen (fun a b => (a, b) ∈ g.edges) a b → rank a < rank b := by
    intro a b hab
    induction hab with
    | single h1 => exact h _ h1
    | tail _ h1 ih => exact ih.trans (h _ h1)
  exact absurd (this v v hv) (lt_irrefl _)

/-- The graph with renamed vertices. -/
def map {W : Type} (f : V → W) (g : Digraph V) : Digraph W := ⟨g.verts.map f, g.edges.map fun e => (f e.1, f e.2)⟩

theorem Acyclic.map {W : Type} [DecidableEq W] {f : V → W} (hf : Function.Injective f) {g : Digraph V} (h : g.Acyclic) : (g.map f).Acyclic := by
  intro v hv
  have key : ∀ a b, Relation.TransGen (fun a b => (a, b) ∈ (g.map f).edges) a b →
      ∃ x y, a = f x ∧ b = f y ∧ Relation.TransGen (fun a b => (a, b) ∈ g.edges) x y := by
    intro a b hab
    induction hab with
    | single h1 =>
      obtain ⟨e, he, h2⟩ := List.mem_map.1 h1
      simp only [Prod.mk.injEq] at h2
      exact ⟨e.1, e.2, h2.1.symm, h2.2.symm, .single he⟩
    | tail _ h1 ih =>
      obtain ⟨x, y, rfl, rfl, ht⟩ := ih
      obtain ⟨e, he, h2⟩ := List.mem_map.1 h1
      simp only [Prod.mk.injEq] at h2
      refine ⟨x, e.2, rfl, h2.2.symm, ht.tail ?_⟩
      rw [← hf h2.1]; exact he
  obtain ⟨x, y, h1, h2, ht⟩ := key v v hv
  rw [hf (h1.symm.trans h2)] at ht
  exact h y ht

theorem Wf.map {W : Type} [DecidableEq W] {f : V → W} (hf : Function.Injective f) {g : Digraph V} (h : g.Wf) : (g.map f).Wf := by
  refine ⟨List.Nodup.map hf h.nodup, ?_⟩
  intro e he
  obtain ⟨e', he', rfl⟩ := List.mem_map.1 he
  exact ⟨List.mem_map_of_mem (h.ends e' he').1, List.mem_map_of_mem (h.ends e' he').2⟩

end Digraph
end NDP.Cnfgen
