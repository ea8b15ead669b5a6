import Verif.Cnfgen.CmdBip
import Verif.Cnfgen.Pipeline
import Verif.Cnfgen.Models2
/-
  The sub-commands of `cnfgen` on bipartite graphs: `gphp`, `subsetcard`, `stonesparse`, from the options to the text printed (C86).
-/
namespace NDP.Cnfgen
open NDP

/-! ### Model -/

/-- The sub-commands with their options. -/
inductive BipCmd where
  | gphp (functional onto : Bool) (a : BipArgs)
  | subsetcard (equal : Bool) (a : BipArgs)
  | stonesparse (d : DagSource) (a : BipArgs)

/-- `families/pigeonhole.py` 250-260, `families/subsetcardinality.py` 136-139, `families/pebbling.py` 419-432 (the `exit(-1)` after a `ValueError` is a
`ValueError` here: for it `cnfgen.py` 217-222 does the same). -/
def BipCmd.cnf : BipCmd → M (CNF Str)
  | .gphp f o a => do graphPigeonhole (← obtainBip a).toBip f o
  | .subsetcard eq a => do subsetCardinality (← obtainBip a).toBip eq
  | .stonesparse d a => do
    let D := d.get
    let B ← obtainBip a
    sparseStone id D B.toBip

def BipCmd.graph : BipCmd → BipArgs
  | .gphp _ _ a => a
  | .subsetcard _ a => a
  | .stonesparse _ a => a

/-- The parsed command line: `args.generator.build_cnf(args)` (`cnfgen.py` 217-222); `hdr` is the header of the formula. -/
def BipCmd.args (c : BipCmd) (verbose : Bool) (hdr : CNF Str → Str) : GenArgs Str :=
  ⟨verbose, .text, do let F ← c.cnf; pure (hdr F, F)⟩

/-! ### Specification -/

/-- What is asked of a bipartite graph, when the graph may be refused. -/
def onBip (a : BipArgs) (Q : BiGraph → Option Prop → Prop) (r : Option Prop) : Prop :=
  (((¬ ∃ h, a.Plants h) ∨ a.NoRoom) ∧ r = none) ∨ ∃ g, a.Gives g ∧ Q g r

/-- The number of vertices. -/
def DagSource.size : DagSource → Nat
  | .tree h => 2 ^ (h + 1) - 1
  | .pyramid h => (h + 1) * (h + 2) / 2

/-- The pigeons (left) sit in holes (right) along edges of the graph. -/
structure Seating (g : BiGraph) (functional onto : Bool) (E : Nat → Nat → Prop) : Prop where
  edge : ∀ u v, E u v → (u, v) ∈ g.edges
  all : ∀ u ∈ g.left, ∃ v, E u v
  one : ∀ v u u', E u v → E u' v → u = u'
  functional : functional = true → ∀ u v v', E u v → E u v' → v = v'
  onto : onto = true → ∀ v ∈ g.right, ∃ u, E u v

/-- What the sub-commands are documented to do. -/
def BipCmd.Answers : BipCmd → Option Prop → Prop
  | .gphp f o a, r => onBip a (fun g r => r = some (∃ E, Seating g f o E)) r
  | .subsetcard eq a, r => onBip a (fun g r => r = some (HalfChoice g eq)) r
  | .stonesparse d a, r => onBip a (fun g r => (g.left.length ≠ d.size ∧ r = none) ∨ (g.left.length = d.size ∧ r = some False)) r

/-! ### Proofs -/

theorem does_bip {a : BipArgs} (ha : a.Legal) {f : Nx Int → M (CNF Str)} {Q : BiGraph → Option Prop → Prop}
    (h : ∀ G, a.Gives G.toBip → Does (f G) (Q G.toBip)) :
    Does (obtainBip a >>= f) (onBip a Q) ∨ (obtainBip a >>= f = raise .runtimeError ∧ a.addedges ≠ none) ∨
      (obtainBip a >>= f = raise .recursionError ∧ a.source.IsRegular) := by
  rcases C86_obtain_bipartite ha with ⟨h1, h2⟩ | ⟨G, h1, h2⟩ | ⟨h1, _, h2⟩ | ⟨h1, h2⟩
  · exact .inl (.inl ⟨by rw [h2, M.raise_bind], .inl ⟨h1, rfl⟩⟩)
  · rw [h1, M.pure_bind]
    rcases h G h2 with ⟨h3, h4⟩ | ⟨F, P, h3, h4, h5, h6⟩
    · exact .inl (.inl ⟨h3, .inr ⟨_, h2, h4⟩⟩)
    · exact .inl (.inr ⟨F, P, h3, h4, .inr ⟨_, h2, h5⟩, h6⟩)
  · exact .inr (.inl ⟨by rw [h2, M.raise_bind], h1⟩)
  · exact .inr (.inr ⟨by rw [h2, M.raise_bind], h1⟩)

theorem BipArgs.Gives.ordered {a : BipArgs} {g : BiGraph} (h : a.Gives g) : g.Ordered := by
  obtain ⟨_, _, h, _⟩ := h; exact h

theorem sum_down (h : Nat) : ((List.range (h + 1)).map fun i => h - i + 1).sum = (h + 1) * (h + 2) / 2 := by
  have key : ∀ n, 2 * ((List.range (n + 1)).map fun i => n - i + 1).sum = (n + 1) * (n + 2) := by
    intro n
    induction n with
    | zero => rfl
    | succ n ih =>
      rw [List.range_succ_eq_map, List.map_cons, List.sum_cons, List.map_map]
      have : ((List.range (n + 1)).map ((fun i => n + 1 - i + 1) ∘ Nat.succ)) = (List.range (n + 1)).map fun i => n - i + 1 := by
        apply List.map_congr_left
        intro i _
        simp
      rw [this, Nat.mul_add, ih, Nat.sub_zero]
      ring
  have := key h
  omega

theorem dag_size (d : DagSource) : d.get.verts.length = d.size := by
  cases d with
  | tree h =>
    show ((List.range (2 * 2 ^ h - 1)).map _).length = 2 ^ (h + 1) - 1
    rw [List.length_map, List.length_range, Nat.pow_succ, Nat.mul_comm]
  | pyramid h =>
    show (List.map _ (((List.range (h + 1)).flatMap fun k => (List.range (h - k + 1)).map fun i => (k, i)))).length = _
    rw [List.length_map, List.length_flatMap]
    simp only [List.length_map, List.length_range]
    exact sum_down h

/-- **C86, the sub-commands.** Whatever the random choices: the sub-command refuses or makes a proper formula as documented.  Only `--addedges` (`RuntimeError`) and
`--bregular` (`RecursionError`) can make it fail otherwise. -/
theorem C86_command {c : BipCmd} (hc : c.graph.Legal) :
    Does c.cnf c.Answers ∨ (c.cnf = raise .runtimeError ∧ c.graph.addedges ≠ none) ∨ (c.cnf = raise .recursionError ∧ c.graph.source.IsRegular) := by
  cases c with
  | gphp f o a =>
    refine does_bip hc fun G hG => ?_
    have ho := hG.ordered
    refine .of_pure (P := ∃ E, Seating G.toBip f o E) ?_ (fun F e => C58_families_proper (.inr (.inl ⟨_, _, _, e⟩))) rfl
    obtain ⟨F, h1, h2⟩ := C50_graph_pigeonhole G.toBip ⟨ho.left_sorted.imp fun h => Nat.ne_of_lt h, ho.right_sorted.imp fun h => Nat.ne_of_lt h⟩ f o
    refine ⟨F, h1, h2.trans ?_⟩
    constructor
    · rintro ⟨E, k1, k2, k3, k4⟩
      refine ⟨fun u v => (u, v) ∈ G.toBip.edges ∧ E u v, fun u v h => h.1, fun u hu => ?_, ?_, ?_, ?_⟩
      · obtain ⟨v, _, h, h'⟩ := k1 u hu; exact ⟨v, h, h'⟩
      · intro v u u' h h'; exact k2 v (ho.ends _ h.1).2 u (ho.ends _ h.1).1 u' (ho.ends _ h'.1).1 h.1 h'.1 h.2 h'.2
      · intro hf u v v' h h'; exact k3 hf u (ho.ends _ h.1).1 v (ho.ends _ h.1).2 v' (ho.ends _ h'.1).2 h.1 h'.1 h.2 h'.2
      · intro ho' v hv; obtain ⟨u, _, h, h'⟩ := k4 ho' v hv; exact ⟨u, h, h'⟩
    · rintro ⟨E, k⟩
      refine ⟨E, fun u hu => ?_, fun v _ u _ u' _ _ _ h h' => k.one v u u' h h', fun hf u _ v _ v' _ _ _ h h' => k.functional hf u v v' h h', fun ho' v hv => ?_⟩
      · obtain ⟨v, h⟩ := k.all u hu; exact ⟨v, (ho.ends _ (k.edge u v h)).2, k.edge u v h, h⟩
      · obtain ⟨u, h⟩ := k.onto ho' v hv; exact ⟨u, (ho.ends _ (k.edge u v h)).1, k.edge u v h, h⟩
  | subsetcard eq a =>
    refine does_bip hc fun G hG => ?_
    refine .of_pure (P := HalfChoice G.toBip eq) ?_ (fun F e => C58_more_families_proper (.inr (.inr (.inr (.inr (.inl ⟨_, _, e⟩)))))) rfl
    obtain ⟨F, h1, h2, _⟩ := C62_subset_cardinality G.toBip hG.ordered eq
    exact ⟨F, h1, h2⟩
  | stonesparse d a =>
    refine does_bip hc fun G hG => ?_
    have hs := C64_sparse_stone id Function.injective_id d.get (dag_ok d).1 G.toBip
    by_cases hl : G.toBip.left.length = d.size
    · refine .of_pure (P := False) ?_ (fun F e => C58_more_families_proper (.inr (.inr (.inr (.inr (.inr (.inr (.inr (.inr (.inr (.inl ⟨_, _, e⟩))))))))))) (.inr ⟨hl, rfl⟩)
      obtain ⟨F, h1, h2⟩ := hs.2 (dag_ok d).2 (by rw [dag_size]; exact hl)
      exact ⟨F, h1, h2.trans (iff_false_intro (dag_nonempty d))⟩
    · exact .inl ⟨hs.1 (.inr (by rw [dag_size]; exact hl)), .inl ⟨hl, rfl⟩⟩

/-- **C86.** `cnfgen <sub-command> -T t₁ -T t₂ …` for the sub-commands on bipartite graphs, with transformations that cannot be refused and have enough variables:
either a message is printed, or a DIMACS file with a formula that can be satisfied exactly if what the sub-command stands for is true (`BipCmd.Answers`).
Only `--addedges` and `--bregular` can end in another error. -/
theorem C86_cnfgen {c : BipCmd} (hc : c.graph.Legal) (parse : List Str → Option (GenArgs Str)) (parseT : List Str → Option (Option Trans))
    (gen : List Str) (ts : List (List Str)) (hg : "-T".toList ∉ gen) (ht : ∀ t ∈ ts, "-T".toList ∉ t) (verbose : Bool) (hdr : CNF Str → Str)
    (hp : parse gen = some (c.args verbose hdr)) {Ts : List Trans} (hT : List.Forall₂ (fun t T => parseT t = some (some T)) ts Ts)
    (hch : ∀ T ∈ Ts, T.Chance ∧ T.Faithful ∧ ¬ T.IsComp) :
    (cnfgen id parse parseT (cmdLine gen ts) = pure none ∧ c.Answers none) ∨
    (∃ out n cs P, cnfgen id parse parseT (cmdLine gen ts) = pure (some out) ∧ Prints out n cs ∧ c.Answers (some P) ∧ (Spec.Satisfiable cs ↔ P)) ∨
    (cnfgen id parse parseT (cmdLine gen ts) = raise .runtimeError ∧ c.graph.addedges ≠ none) ∨
    (cnfgen id parse parseT (cmdLine gen ts) = raise .recursionError ∧ c.graph.source.IsRegular) := by
  obtain ⟨h1, h2⟩ := C78_cnfgen (sh := id) Function.injective_id parse parseT gen ts hg ht hp hT (fun T h => (hch T h).1) rfl
  rcases C86_command hc with (⟨e, hq⟩ | ⟨F, P, e, hF, hq, hs⟩) | ⟨e, hq⟩ | ⟨e, hq⟩
  · refine .inl ⟨?_, hq⟩
    have := h2 .valueError (by show (c.cnf >>= _) = _; rw [e, M.raise_bind])
    rw [this, if_pos (.inl rfl)]
  · rcases h1 (hdr F) F (by show (c.cnf >>= _) = _; rw [e, M.pure_bind]) hF with ⟨_, T, hT, hco⟩ | ⟨out, n, cs, k1, k2, _, k4⟩
    · exact absurd hco (hch T hT).2.2
    · exact .inr (.inl ⟨out, n, cs, P, k1, k2, hq, (k4 fun T hT => (hch T hT).2.1).trans hs⟩)
  · refine .inr (.inr (.inl ⟨?_, hq⟩))
    have := h2 .runtimeError (by show (c.cnf >>= _) = _; rw [e, M.raise_bind])
    rw [this, if_neg (by simp)]
  · refine .inr (.inr (.inr ⟨?_, hq⟩))
    have := h2 .recursionError (by show (c.cnf >>= _) = _; rw [e, M.raise_bind])
    rw [this, if_neg (by simp)]

/-! ### The assignments -/

/-- A choice of edges as `subsetcard` is documented to ask for: at least half at each left vertex, at most half at each right one; with `--equal` exactly half,
rounded up on the left and down on the right. -/
def HalfChosen (g : BiGraph) (equal : Bool) (s : Nat → Nat → Bool) : Prop :=
  (∀ u ∈ g.left, if equal then (g.right.filter fun v => (u, v) ∈ g.edges ∧ s u v).length = ((g.right.filter fun v => (u, v) ∈ g.edges).length + 1) / 2
    else (g.right.filter fun v => (u, v) ∈ g.edges).length ≤ 2 * (g.right.filter fun v => (u, v) ∈ g.edges ∧ s u v).length) ∧
  (∀ v ∈ g.right, if equal then (g.left.filter fun u => (u, v) ∈ g.edges ∧ s u v).length = (g.left.filter fun u => (u, v) ∈ g.edges).length / 2
    else 2 * (g.left.filter fun u => (u, v) ∈ g.edges ∧ s u v).length ≤ (g.left.filter fun u => (u, v) ∈ g.edges).length)

theorem obtained {a : BipArgs} (ha : a.Legal) {f : Nx Int → M (CNF Str)} {F : CNF Str} (e : obtainBip a >>= f = pure F) :
    ∃ G, obtainBip a = pure G ∧ a.Gives G.toBip ∧ f G = pure F := by
  obtain ⟨G, e1, e2⟩ := M.bind_eq_pure.1 e
  rcases C86_obtain_bipartite ha with ⟨_, h⟩ | ⟨G', h, h'⟩ | ⟨_, _, h⟩ | ⟨_, h⟩
  · rw [h] at e1; simp at e1
  · obtain rfl := (M.pure_inj _ _).1 (e1.symm.trans h)
    exact ⟨G, h, h', e2⟩
  · rw [h] at e1; simp at e1
  · rw [h] at e1; simp at e1

theorem filter_length_congr {l : List Nat} {p q : Nat → Bool} (h : ∀ x ∈ l, p x = q x) : (l.filter p).length = (l.filter q).length := by
  rw [List.filter_congr h]

/-- **C86, the assignments.** The formulas of `gphp` and `subsetcard` have a variable for each edge of the graph ordered, `p_{u,v}` and `x_{u,v}`, and the assignments
that satisfy them are exactly the seatings and the choices of edges. -/
theorem C86_models {a : BipArgs} (ha : a.Legal) {F : CNF Str} :
    (∀ f o, (BipCmd.gphp f o a).cnf = pure F → ∃ g, a.Gives g ∧ (∀ x, x ∈ F.vars ↔ ∃ e ∈ g.edges, x = fmt2 "p".toList e.1 e.2) ∧
      ∀ α, Holds F.vars F.clauses α ↔ Seating g f o fun u v => (u, v) ∈ g.edges ∧ α (fmt2 "p".toList u v) = true) ∧
    (∀ eq, (BipCmd.subsetcard eq a).cnf = pure F → ∃ g, a.Gives g ∧ (∀ x, x ∈ F.vars ↔ ∃ e ∈ g.edges, x = xn (min e.1 e.2) (max e.1 e.2)) ∧
      ∀ α, Holds F.vars F.clauses α ↔ HalfChosen g eq fun u v => α (xn (min u v) (max u v))) := by
  constructor
  · intro f o e
    obtain ⟨G, _, hG, e⟩ := obtained ha e
    have ho := hG.ordered
    obtain ⟨h1, h2⟩ := C67_graph_pigeonhole ⟨ho.left_sorted.imp fun h => Nat.ne_of_lt h, ho.right_sorted.imp fun h => Nat.ne_of_lt h⟩ e
    refine ⟨_, hG, fun x => (h1 x).trans ?_, fun α => (h2 α).trans ?_⟩
    · constructor
      · rintro ⟨u, _, v, _, he, rfl⟩; exact ⟨(u, v), he, rfl⟩
      · rintro ⟨⟨u, v⟩, he, rfl⟩; exact ⟨u, (ho.ends _ he).1, v, (ho.ends _ he).2, he, rfl⟩
    · constructor
      · rintro ⟨k1, k4, k2, k3⟩
        refine ⟨fun u v h => h.1, fun u hu => ?_, ?_, ?_, ?_⟩
        · obtain ⟨v, _, h, h'⟩ := k1 u hu; exact ⟨v, h, h'⟩
        · intro v u u' h h'; exact k2 v (ho.ends _ h.1).2 u (ho.ends _ h.1).1 u' (ho.ends _ h'.1).1 h.1 h'.1 h.2 h'.2
        · intro hf u v v' h h'; exact k3 hf u (ho.ends _ h.1).1 v (ho.ends _ h.1).2 v' (ho.ends _ h'.1).2 h.1 h'.1 h.2 h'.2
        · intro ho' v hv; obtain ⟨u, _, h, h'⟩ := k4 ho' v hv; exact ⟨u, h, h'⟩
      · intro k
        refine ⟨fun u hu => ?_, fun ho' v hv => ?_, fun v _ u _ u' _ e e' h h' => k.one v u u' ⟨e, h⟩ ⟨e', h'⟩,
          fun hf u _ v _ v' _ e e' h h' => k.functional hf u v v' ⟨e, h⟩ ⟨e', h'⟩⟩
        · obtain ⟨v, h⟩ := k.all u hu; exact ⟨v, (ho.ends _ h.1).2, h.1, h.2⟩
        · obtain ⟨u, h⟩ := k.onto ho' v hv; exact ⟨u, (ho.ends _ h.1).1, h.1, h.2⟩
  · intro eq e
    obtain ⟨G, _, hG, e⟩ := obtained ha e
    have ho := hG.ordered
    obtain ⟨h1, h2⟩ := C67_subset_cardinality ho e
    refine ⟨_, hG, h1, fun α => (h2 α).trans ?_⟩
    unfold HalfChosen BiGraph.chosenL BiGraph.chosenR BiGraph.nbrL BiGraph.nbrR
    simp only [List.filter_filter]
    refine and_congr (forall₂_congr fun u _ => ?_) (forall₂_congr fun v _ => ?_)
    · rw [filter_length_congr (l := G.toBip.right) (q := fun v => decide ((u, v) ∈ G.toBip.edges ∧ α (xn (min u v) (max u v)) = true))]
      intro v _
      rw [Bool.eq_iff_iff]; simp [and_comm]
    · rw [filter_length_congr (l := G.toBip.left) (q := fun u => decide ((u, v) ∈ G.toBip.edges ∧ α (xn (min u v) (max u v)) = true))]
      intro u _
      rw [Bool.eq_iff_iff]; simp [and_comm]

/-! ### Instances -/

/-- The complete bipartite graph 3 × 2: legal, given, and no seating: the formula printed is unsatisfiable. -/
example : let a : BipArgs := { source := .bcomplete 3 2 }
    a.Legal ∧ (∀ g, a.Gives g → ¬ ∃ E, Seating g false false E) ∧ ¬ (BipCmd.gphp false false a).Answers none := by
  intro a
  have hn : ∀ g, a.Gives g → g.left = [0, 1, 2] ∧ g.right = [3, 4] ∧ g.Ordered := by
    rintro g ⟨h, ⟨L, R, E, hd, _, _, k1, k2, _⟩, ho, _, e1, e2, _⟩
    refine ⟨?_, ?_, ho⟩
    · rw [e1, k1, hd.1]; rfl
    · rw [e2, k2, hd.2.1]; rfl
  have hpl : ∃ h, a.Plants h := by
    refine ⟨⟨[0, 1, 2], [3, 4], [(0, 3), (0, 4), (1, 3), (1, 4), (2, 3), (2, 4)]⟩, [0, 1, 2], [3, 4], fun u v => u ∈ [0, 1, 2] ∧ v ∈ [3, 4],
      ⟨rfl, rfl, fun _ _ => Iff.rfl⟩, ⟨by decide, by decide, by decide, by decide⟩, by decide, rfl, rfl, by simp [a], ?_⟩
    intro u v
    simp [a]
    omega
  refine ⟨⟨trivial, by simp [a], by simp [a]⟩, ?_, ?_⟩
  · rintro g hg ⟨E, hE⟩
    obtain ⟨e1, e2, ho⟩ := hn g hg
    have hr : ∀ u v, E u v → v = 3 ∨ v = 4 := by
      intro u v h
      have := (ho.ends _ (hE.edge u v h)).2
      rw [e2] at this
      simpa using this
    obtain ⟨v0, h0⟩ := hE.all 0 (by rw [e1]; simp)
    obtain ⟨v1, h1⟩ := hE.all 1 (by rw [e1]; simp)
    obtain ⟨v2, h2⟩ := hE.all 2 (by rw [e1]; simp)
    have n01 : v0 ≠ v1 := fun e => by have := hE.one v0 0 1 h0 (e ▸ h1); omega
    have n02 : v0 ≠ v2 := fun e => by have := hE.one v0 0 2 h0 (e ▸ h2); omega
    have n12 : v1 ≠ v2 := fun e => by have := hE.one v1 1 2 h1 (e ▸ h2); omega
    have := hr _ _ h0
    have := hr _ _ h1
    have := hr _ _ h2
    omega
  · rintro (⟨h | ⟨h, k, _, hk, _⟩, _⟩ | ⟨g, _, h⟩)
    · exact h hpl
    · simp [a] at hk
    · simp at h

/-- A text read from the standard input and a planted edge: the formula, literally. -/
example (parseT : List Str → Option (Option Trans)) :
    cnfgen id (fun _ => some ((BipCmd.gphp false false { source := .kthlist "4\n1 : 3 0\n2 : 3 0\n".toList, plantbiclique := some (1, 1), left := [2], right := [4] }).args
      false fun _ => [])) parseT (cmdLine ["gphp".toList] []) = pure (some "p cnf 3 3\n1 0\n2 3 0\n-1 -2 0\n".toList) := by
  rfl

/-- Legal random choices. -/
example : BipArgs.Legal { source := .bregular 2 2 1 (fun _ i _ => (i, i)) 1 } ∧ BipArgs.Legal { source := .bd 2 3 2 fun u => [u + 2, u + 3] } ∧
    ∃ G, obtainBip { source := .bregular 2 2 1 (fun _ i _ => (i, i)) 1 } = pure G ∧ G.toBip.edges = [(0, 2), (1, 3)] := by
  refine ⟨⟨⟨by decide, fun j i hi k => ⟨⟨le_refl _, hi⟩, le_refl _, hi⟩⟩, by simp, by simp⟩, ⟨?_, by simp, by simp⟩, _, rfl, rfl⟩
  intro u hu
  refine ⟨by simp, rfl, ?_⟩
  intro v hv
  simp at hv
  omega

end NDP.Cnfgen
