import Verif.Cnfgen.CmdGraph
import Verif.Cnfgen.SubgraphMany
import Verif.Cnfgen.Random
import Verif.Cnfgen.ToolNumbers
/-
  The sub-commands of `cnfgen`: the `build_cnf` functions of `software/cnfgen/cnfformula/families/*.py`, end to end, from the options to the text printed.
  The options are those `argparse` has parsed (`parse` in `Tools.lean`).  Numbers are not negative, except the number of stones (see `CmdInts.lean` for all integers).
  `gphp`, `subsetcard`, `stonesparse` are in `CommandsBip.lean`.  Directed graphs read from a text are in `DagText.lean`.
-/
namespace NDP.Cnfgen
open NDP

/-! ### Model -/

/-- `--charge` (`families/tseitin.py` 73-79). -/
inductive Charge where
  | first | random | randomodd | randomeven

/-- `sum(charge) % 2`. -/
def chargeParity (cs : List Bool) : Bool := decide ((cs.filter id).length % 2 = 1)

/-- `families/tseitin.py` 89-108; `coins` are the values of `random.randint(0,1)`. -/
def chargeVec (ch : Charge) (coins : Nat → Bool) (n : Nat) : Option (List Bool) :=
  if n < 1 then none
  else match ch with
    | .first => some (true :: List.replicate (n - 1) false)
    | .random => some ((List.range (n - 1)).map coins ++ [coins (n - 1)])
    | .randomodd => some ((List.range (n - 1)).map coins ++ [!chargeParity ((List.range (n - 1)).map coins)])
    | .randomeven => some ((List.range (n - 1)).map coins ++ [chargeParity ((List.range (n - 1)).map coins)])

/-- `--tree` and `--pyramid` (`cmdline.py` 250-300). -/
inductive DagSource where
  | tree (height : Nat)
  | pyramid (height : Nat)

def DagSource.get : DagSource → Digraph Str
  | .tree h => Cnfgen.binaryTree h
  | .pyramid h => Cnfgen.pyramid h

/-- The sub-commands with their options; `bits` and `isqrt` are the floating point computations `ceil(log(n,2))` and `int(sqrt(z))`, `coins`
and `rs` the random choices.  An absent `--knuth` is `0`. -/
inductive Cmd where
  | php (pigeons holes : Nat) (functional onto : Bool)
  | bphp (pigeons holes bits : Nat)
  | op (n : Nat) (total smart plant : Bool) (knuth : Int)
  | gop (a : GraphArgs) (total smart plant : Bool) (knuth : Int)
  | parity (n : Nat)
  | matching (a : GraphArgs)
  | count (m p : Nat)
  | tseitin (charge : Charge) (coins : Nat → Bool) (a : GraphArgs)
  | kcolor (k : Nat) (a : GraphArgs)
  | ec (a : GraphArgs)
  | ram (s k n : Nat)
  | ptn (isqrt : Nat → Nat) (n : Nat)
  | cliquecoloring (n k c : Nat)
  | domset (alternative : Bool) (d : Nat) (a : GraphArgs)
  | giso (a1 a2 : GraphArgs)
  | gauto (a : GraphArgs)
  | subgraph (a aT : GraphArgs)
  | kclique (k : Nat) (a : GraphArgs)
  | kcliquebin (k bits : Nat) (a : GraphArgs)
  | ramlb (k s : Nat) (a : GraphArgs)
  | randkcnf (rs : RandomSource) (k n m : Nat)
  | or (p n : Nat)
  | and (p n : Nat)
  | empty
  | emptyclause
  | peb (d : DagSource)
  | stone (s : Int) (d : DagSource)

/-- The `build_cnf` functions: `families/pigeonhole.py` 217-226, 282-289; `ordering.py` 183-189, 218-225; `counting.py` 113-114, 135-137, 158-164;
`tseitin.py` 81-110; `coloring.py` 163-170, 185-187; `ramsey.py` 137-143, 163-169; `cliquecoloring.py` 127-133; `dominatingset.py` 132-139;
`graphisomorphism.py` 129-136, 159-167; `subgraph.py` 273-280, 302-309, 333-340, 361-369; `randomformulas.py` 143-149; `simple.py` 30-42, 63-74, 90-98, 113-121;
`pebbling.py` 356-367, 388-399.  Where they print a message and exit, there is a `ValueError` here: for it `cnfgen.py` 217-222 does the same. -/
def Cmd.cnf : Cmd → M (CNF Str)
  | .php p h f o => pigeonhole p h f o
  | .bphp p h bits => binaryPigeonhole p h bits
  | .op n t s p k => ordering n t s p k
  | .gop a t s p k => do graphOrdering (← obtainGraph a).toGraph t s p k
  | .parity n => counting n 2
  | .matching a => do perfectMatching (← obtainGraph a).toGraph
  | .count m p => counting m p
  | .tseitin ch coins a => do
    let G ← obtainGraph a
    Cnfgen.tseitin G.toGraph (chargeVec ch coins G.nodes.length)
  | .kcolor k a => do graphColoring (← obtainGraph a).toGraph (oneTo k) true
  | .ec a => do evenColoring (← obtainGraph a).toGraph
  | .ram s k n => ramsey s k n
  | .ptn isqrt n => pythagorean isqrt n
  | .cliquecoloring n k c => cliqueColoring n k c
  | .domset alt d a => do dominatingSet (← obtainGraph a).toGraph d alt
  | .giso a1 a2 => do
    let G1 ← obtainGraph a1
    let G2 ← obtainGraph a2
    graphIsomorphism G1.toGraph G2.toGraph
  | .gauto a => do graphAutomorphism (← obtainGraph a).toGraph
  | .subgraph a aT => do
    let G ← obtainGraph a
    let T ← obtainGraph aT
    Cnfgen.subgraph G.toGraph [T.toGraph] false
  | .kclique k a => do cliqueFormula (← obtainGraph a).toGraph k
  | .kcliquebin k bits a => do
    let G ← obtainGraph a
    binaryClique G.toGraph (G.nodes.map Int.toNat) k bits
  | .ramlb k s a => do ramseyWitness (← obtainGraph a).toGraph k s
  | .randkcnf rs k n m => randomKCNF rs k n m []
  | .or p n => orFormula p n
  | .and p n => andFormula p n
  | .empty => emptyFormula
  | .emptyclause => emptyClauseFormula
  | .peb d => pebbling d.get
  | .stone s d => Cnfgen.stone id d.get s

/-- The parsed command line: `args.generator.build_cnf(args)` (`cnfgen.py` 217-222); `hdr` is the header of the formula. -/
def Cmd.args (c : Cmd) (verbose : Bool) (hdr : CNF Str → Str) : GenArgs Str :=
  ⟨verbose, .text, do let F ← c.cnf; pure (hdr F, F)⟩

/-! ### Specification -/

/-- What is asked of a graph, when the graph may be refused: `none` is a refusal, `some P` a formula that can be satisfied exactly if `P`. -/
def onGraph (a : GraphArgs) (Q : Graph → Option Prop → Prop) (r : Option Prop) : Prop :=
  (a.Refused ∧ r = none) ∨ (¬ a.Refused ∧ ∃ g, a.Gives g ∧ Q g r)

/-- The charges of `tseitin`. -/
def ChargesOK (ch : Charge) (n : Nat) (cs : List Bool) : Prop :=
  cs.length = n ∧ (n ≠ 0 → match ch with
    | .first => ∀ i < n, cs[i]? = some (decide (i = 0))
    | .random => True
    | .randomodd => (cs.filter id).length % 2 = 1
    | .randomeven => (cs.filter id).length % 2 = 0)

open Classical in
/-- What the sub-commands are documented to do. -/
def Cmd.Answers : Cmd → Option Prop → Prop
  | .php p h f o, r => r = some (p ≤ h ∧ (o = true → if f then p = h else (h = 0 ∨ 0 < p)))
  | .bphp p h _, r => (h = 0 ∧ r = none) ∨ (0 < h ∧ r = some (p ≤ h))
  | .op n _ _ plant _, r => r = some (n = 0 ∨ plant = true)
  | .gop a _ _ plant _, r => onGraph a (fun g r => r = some (g.verts = [] ∨ (plant = true ∧ g.Connected))) r
  | .parity n, r => r = some (n % 2 = 0)
  | .matching a, r => onGraph a (fun g r => r = some (∃ f : Nat → Nat, ∀ v ∈ g.verts, g.hasEdge v (f v) = true ∧ f (f v) = v)) r
  | .count m p, r => r = some (p ∣ m)
  | .tseitin ch _ a, r => onGraph a (fun g r => ∃ cs, ChargesOK ch g.verts.length cs ∧
      r = some (∀ v ∈ g.verts, ∃ k, ((g.verts.zip cs).filter fun p => p.2 ∧ Reach g v p.1).length = 2 * k)) r
  | .kcolor k a, r => onGraph a (fun g r => r = some (∃ f : Nat → Nat, (∀ v ∈ g.verts, 1 ≤ f v ∧ f v ≤ k) ∧ ∀ u v, g.hasEdge u v = true → f u ≠ f v)) r
  | .ec a, r => onGraph a (fun g r => ((∃ v ∈ g.verts, (g.at v).length % 2 = 1) ∧ r = none) ∨ ((∀ v ∈ g.verts, (g.at v).length % 2 = 0) ∧
      r = some (∃ s : Nat × Nat → Bool, ∀ v ∈ g.verts, ((g.at v).filter fun e => s e).length = ((g.at v).filter fun e => !s e).length))) r
  | .ram s k n, r => r = some (∃ E : Nat → Nat → Prop, (∀ u v, E u v → E v u) ∧
        (∀ S : Finset Nat, (∀ v ∈ S, 1 ≤ v ∧ v ≤ n) → S.card = s → ∃ u ∈ S, ∃ v ∈ S, u ≠ v ∧ E u v) ∧
        (∀ S : Finset Nat, (∀ v ∈ S, 1 ≤ v ∧ v ≤ n) → S.card = k → ∃ u ∈ S, ∃ v ∈ S, u ≠ v ∧ ¬ E u v))
  | .ptn _ n, r => r = some (∃ color : Nat → Bool, ∀ x y z, 1 ≤ x → 1 ≤ y → z ≤ n → x ^ 2 + y ^ 2 = z ^ 2 → ¬ (color x = color y ∧ color y = color z))
  | .cliquecoloring n k c, r => r = some (HasCliqueAndColoring n k c)
  | .domset _ d a, r => onGraph a (fun g r => r = some (HasDominatingSet g d)) r
  | .giso a1 a2, r => onGraph a1 (fun g1 => onGraph a2 fun g2 r => r = some (∃ f, g1.IsIso g2 f)) r
  | .gauto a, r => onGraph a (fun g r => r = some (∃ f, g.IsIso g f ∧ ∃ v ∈ g.verts, f v ≠ v)) r
  | .subgraph a aT, r => onGraph a (fun g => onGraph aT fun t r => r = some (∃ φ, InducedCopy g t φ)) r
  | .kclique k a, r => onGraph a (fun g r => r = some (∃ K : Finset Nat, Homogeneous g true K ∧ K.card = k)) r
  | .kcliquebin k _ a, r => onGraph a (fun g r => (g.verts = [] ∧ r = none) ∨
      (g.verts ≠ [] ∧ r = some (∃ K : Finset Nat, Homogeneous g true K ∧ K.card = k))) r
  | .ramlb k s a, r => onGraph a (fun g r => ∃ P : Prop, r = some P ∧
      (P → (∃ K, Homogeneous g true K ∧ K.card = k) ∨ ∃ K, Homogeneous g false K ∧ K.card = s) ∧
      (k = s → ((∃ K, Homogeneous g true K ∧ K.card = k) ∨ ∃ K, Homogeneous g false K ∧ K.card = s) → P)) r
  | .randkcnf _ k n m, r => ((n < k ∨ {c | Candidate k n [] c}.ncard < m) ∧ r = none) ∨ (k ≤ n ∧ ∃ cs : List (List (Lit Str)), cs.length = m ∧ cs.Nodup ∧
      (∀ c ∈ cs, Candidate k n [] c) ∧ r = some (∃ α, AllTrue α cs))
  | .or p n, r => r = some (0 < p + n)
  | .and _ _, r => r = some True
  | .empty, r => r = some True
  | .emptyclause, r => r = some False
  | .peb _, r => r = some False
  | .stone s _, r => (s < 0 ∧ r = none) ∨ (0 ≤ s ∧ r = some False)

/-- What the random choices and the floating point computations satisfy. -/
def Cmd.Legal : Cmd → Prop
  | .bphp _ h bits => h ≤ 2 ^ bits
  | .ptn isqrt n => ∀ z ≤ n, isqrt (z ^ 2) = z
  | .randkcnf rs k n _ => k ≤ n → rs.Ok k n
  | .kcliquebin _ bits a => a.Legal ∧ ∀ g, a.Gives g → g.verts.length ≤ 2 ^ bits
  | .giso a1 a2 => a1.Legal ∧ a2.Legal
  | .subgraph a aT => a.Legal ∧ aT.Legal
  | .gop a _ _ _ _ => a.Legal
  | .matching a => a.Legal
  | .tseitin _ _ a => a.Legal
  | .kcolor _ a => a.Legal
  | .ec a => a.Legal
  | .domset _ _ a => a.Legal
  | .gauto a => a.Legal
  | .kclique _ a => a.Legal
  | .ramlb _ _ a => a.Legal
  | _ => True

/-- Some graph of the command has `--addedges`. -/
def Cmd.AddsEdges : Cmd → Prop
  | .giso a1 a2 => (∃ k, a1.addedges = some k) ∨ ∃ k, a2.addedges = some k
  | .subgraph a aT => (∃ k, a.addedges = some k) ∨ ∃ k, aT.addedges = some k
  | .kcliquebin _ _ a => ∃ k, a.addedges = some k
  | .gop a _ _ _ _ => ∃ k, a.addedges = some k
  | .matching a => ∃ k, a.addedges = some k
  | .tseitin _ _ a => ∃ k, a.addedges = some k
  | .kcolor _ a => ∃ k, a.addedges = some k
  | .ec a => ∃ k, a.addedges = some k
  | .domset _ _ a => ∃ k, a.addedges = some k
  | .gauto a => ∃ k, a.addedges = some k
  | .kclique _ a => ∃ k, a.addedges = some k
  | .ramlb _ _ a => ∃ k, a.addedges = some k
  | _ => False

/-- The generator does as `Q` says: it refuses, or makes a proper formula. -/
def Does (m : M (CNF Str)) (Q : Option Prop → Prop) : Prop :=
  (m = raise .valueError ∧ Q none) ∨ ∃ F P, m = pure F ∧ Cnfgen.Proper F.vars F.clauses ∧ Q (some P) ∧ (Spec.Satisfiable F.clauses ↔ P)

/-! ### Proofs -/

theorem Does.of_pure {m : M (CNF Str)} {P : Prop} (h : ∃ F, m = pure F ∧ (Spec.Satisfiable F.clauses ↔ P)) (hp : ∀ F, m = pure F → Cnfgen.Proper F.vars F.clauses)
    {Q : Option Prop → Prop} (hq : Q (some P)) : Does m Q := by
  obtain ⟨F, e, h⟩ := h
  exact .inr ⟨F, P, e, hp F e, hq, h⟩

theorem does_graph {a : GraphArgs} (ha : a.Legal) {f : Nx Int → M (CNF Str)} {Q : Graph → Option Prop → Prop} {E : Prop}
    (h : ∀ vs G, Plain vs G → a.Gives G.toGraph → Does (f G) (Q G.toGraph) ∨ (f G = raise .runtimeError ∧ E)) :
    Does (obtainGraph a >>= f) (onGraph a Q) ∨ (obtainGraph a >>= f = raise .runtimeError ∧ ((∃ k, a.addedges = some k) ∨ E)) := by
  rcases C84_obtain_graph ha with ⟨h1, h2⟩ | ⟨h1, ⟨G, vs, h2, h3, h4⟩ | ⟨h2, h3⟩⟩
  · refine .inl (.inl ⟨by rw [h2, M.raise_bind], .inl ⟨h1, rfl⟩⟩)
  · rw [h2, M.pure_bind]
    rcases h vs G h3 h4 with (⟨h5, h6⟩ | ⟨F, P, h5, h6, h7, h8⟩) | ⟨h5, h6⟩
    · exact .inl (.inl ⟨h5, .inr ⟨h1, _, h4, h6⟩⟩)
    · exact .inl (.inr ⟨F, P, h5, h6, .inr ⟨h1, _, h4, h7⟩, h8⟩)
    · exact .inr ⟨h5, .inr h6⟩
  · exact .inr ⟨by rw [h2, M.raise_bind], .inl h3⟩

theorem does_graph' {a : GraphArgs} (ha : a.Legal) {f : Nx Int → M (CNF Str)} {Q : Graph → Option Prop → Prop}
    (h : ∀ vs G, Plain vs G → G.toGraph.Wf → G.nodes.length = G.toGraph.verts.length → Does (f G) (Q G.toGraph)) :
    Does (obtainGraph a >>= f) (onGraph a Q) ∨ (obtainGraph a >>= f = raise .runtimeError ∧ ∃ k, a.addedges = some k) := by
  rcases does_graph (E := False) ha (fun vs G h1 _ => .inl (h vs G h1 h1.toGraph_wf (by
    rw [h1.toNat_verts, h1.nodes.length_eq, List.length_map]))) with h | ⟨h1, h2 | h2⟩
  · exact .inl h
  · exact .inr ⟨h1, h2⟩
  · exact h2.elim

theorem chargeParity_count (cs : List Bool) : chargeParity cs = decide ((cs.filter id).length % 2 = 1) := rfl

theorem chargeVec_ok (ch : Charge) (coins : Nat → Bool) (n : Nat) :
    (n = 0 ∧ chargeVec ch coins n = none) ∨ (n ≠ 0 ∧ ∃ cs, chargeVec ch coins n = some cs ∧ ChargesOK ch n cs) := by
  rcases Nat.eq_zero_or_pos n with rfl | hn
  · exact .inl ⟨rfl, rfl⟩
  refine .inr ⟨by omega, ?_⟩
  unfold chargeVec
  rw [if_neg (by omega)]
  obtain ⟨m, rfl⟩ : ∃ m, n = m + 1 := ⟨n - 1, by omega⟩
  cases ch with
  | first =>
    refine ⟨_, rfl, by simp, fun _ i hi => ?_⟩
    cases i with
    | zero => rfl
    | succ i =>
      simp only [Nat.add_sub_cancel, List.getElem?_cons_succ]
      rw [List.getElem?_replicate, if_pos (by omega)]
      simp
  | random => exact ⟨_, rfl, by simp, fun _ => trivial⟩
  | randomodd =>
    refine ⟨_, rfl, by simp, fun _ => ?_⟩
    simp only [List.filter_append, List.length_append, chargeParity]
    generalize ((List.map coins (List.range (m + 1 - 1))).filter id).length = x
    by_cases h : x % 2 = 1
    · simp [h]
    · simp [h]; omega
  | randomeven =>
    refine ⟨_, rfl, by simp, fun _ => ?_⟩
    simp only [List.filter_append, List.length_append, chargeParity]
    generalize ((List.map coins (List.range (m + 1 - 1))).filter id).length = x
    by_cases h : x % 2 = 1
    · simp [h]; omega
    · simp [h]; omega

theorem mem_oneTo' {k x : Nat} : x ∈ oneTo k ↔ 1 ≤ x ∧ x ≤ k := by
  unfold oneTo
  rw [List.mem_map]
  constructor
  · rintro ⟨a, ha, rfl⟩; rw [List.mem_range] at ha; omega
  · rintro ⟨h1, h2⟩; exact ⟨x - 1, List.mem_range.2 (by omega), by omega⟩

theorem edges_iff_hasEdge {g : Graph} {Q : Nat → Nat → Prop} (hq : ∀ u v, Q u v → Q v u) : (∀ e ∈ g.edges, Q e.1 e.2) ↔ ∀ u v, g.hasEdge u v = true → Q u v := by
  constructor
  · intro h u v he
    rw [Graph.hasEdge_iff] at he
    rcases he with he | he
    · exact h _ he
    · exact hq _ _ (h _ he)
  · rintro h ⟨u, v⟩ he
    exact h u v ((Graph.hasEdge_iff ..).2 (.inl he))

theorem dag_nonempty (d : DagSource) : d.get.verts ≠ [] := by
  cases d with
  | tree h =>
    obtain ⟨F, h1, h2, _⟩ := (C64_builtin_dags h).2
    obtain ⟨F', h3, _, h4⟩ := (C64_pebbling (binaryTree h) (binaryTree_ok h).1).2 (binaryTree_ok h).2
    rw [h1] at h3
    obtain rfl := (M.pure_inj _ _).1 h3
    exact fun e => h2 (h4.2 e)
  | pyramid h =>
    obtain ⟨F, h1, h2, _⟩ := (C64_builtin_dags h).1
    obtain ⟨F', h3, _, h4⟩ := (C64_pebbling (pyramid h) (pyramid_ok h).1).2 (pyramid_ok h).2
    rw [h1] at h3
    obtain rfl := (M.pure_inj _ _).1 h3
    exact fun e => h2 (h4.2 e)

theorem dag_ok (d : DagSource) : d.get.Wf ∧ d.get.Acyclic := by
  cases d with
  | tree h => exact binaryTree_ok h
  | pyramid h => exact pyramid_ok h

/-- **C84, the sub-commands.** Whatever the random choices: the sub-command refuses or makes a proper formula as documented.  Only `--addedges` can make it fail
otherwise, with a `RuntimeError`. -/
theorem C84_command {c : Cmd} (hc : c.Legal) : Does c.cnf c.Answers ∨ (c.cnf = raise .runtimeError ∧ c.AddsEdges) := by
  cases c with
  | php p h f o => exact .inl (.of_pure (C50_pigeonhole p h f o) (fun F e => C58_families_proper (.inl ⟨_, _, _, _, e⟩)) rfl)
  | bphp p h bits =>
    rcases Nat.eq_zero_or_pos h with rfl | hh
    · exact .inl (.inl ⟨by first | rfl | simp [Cmd.cnf, binaryPigeonhole], .inl ⟨rfl, rfl⟩⟩)
    · exact .inl (.of_pure (C50_binary_pigeonhole p h bits hh hc) (fun F e => C58_families_proper (.inr (.inr (.inl ⟨_, _, _, e⟩)))) (.inr ⟨hh, rfl⟩))
  | op n t s p k =>
    refine .inl (.of_pure (C51_ordering n t s p k) (fun F e => C58_families_proper (.inr (.inr (.inr (.inl ⟨_, _, _, _, _, e⟩))))) rfl)
  | gop a t s p k =>
    exact does_graph' hc fun vs G _ hw _ => .of_pure (C51_graph_ordering _ hw t s p k) (fun F e => C58_families_proper (.inr (.inr (.inr (.inl ⟨_, _, _, _, _, e⟩))))) rfl
  | parity n =>
    refine .inl (.of_pure (P := n % 2 = 0) ?_ (fun F e => C58_families_proper (.inr (.inr (.inr (.inr (.inl ⟨_, _, e⟩)))))) rfl)
    obtain ⟨F, h1, h2⟩ := C52_counting n 2
    exact ⟨F, h1, h2.trans Nat.dvd_iff_mod_eq_zero⟩
  | matching a =>
    exact does_graph' hc fun vs G _ hw _ => .of_pure (C52_perfect_matching _ hw) (fun F e => C58_families_proper (.inr (.inr (.inr (.inr (.inr (.inl ⟨_, e⟩))))))) rfl
  | count m p => exact .inl (.of_pure (C52_counting m p) (fun F e => C58_families_proper (.inr (.inr (.inr (.inr (.inl ⟨_, _, e⟩)))))) rfl)
  | tseitin ch coins a =>
    refine does_graph' hc fun vs G _ hw hl => ?_
    have hp : ∀ F c, tseitin G.toGraph c = pure F → Cnfgen.Proper F.vars F.clauses :=
      fun F c e => C58_families_proper (.inr (.inr (.inr (.inr (.inr (.inr (.inl ⟨_, _, e⟩)))))))
    rw [hl]
    rcases chargeVec_ok ch coins G.toGraph.verts.length with ⟨h0, h1⟩ | ⟨h0, cs, h1, h2⟩
    · rw [h1]
      have hv : G.toGraph.verts = [] := List.length_eq_zero_iff.1 h0
      obtain ⟨F, h3, h4⟩ := C53_default G.toGraph hw
      refine .inr ⟨F, _, h3, hp F _ h3, ⟨[], ⟨by rw [h0]; rfl, fun h => absurd h0 h⟩, rfl⟩, ?_⟩
      rw [h4]
      simp [hv]
    · rw [h1]
      exact .of_pure (C53_tseitin _ hw cs) (fun F e => hp F _ e) ⟨cs, h2, rfl⟩
  | kcolor k a =>
    refine does_graph' hc fun vs G _ hw _ => .of_pure ?_ (fun F e => C58_families_proper (.inr (.inr (.inr (.inr (.inr (.inr (.inr (.inl ⟨_, _, _, e⟩))))))))) rfl
    obtain ⟨F, h1, h2⟩ := C54_coloring G.toGraph hw (oneTo k) ((nodup_oneTo_sorted k).imp fun h => Nat.ne_of_lt h) true
    refine ⟨F, h1, h2.trans (exists_congr fun f => ?_)⟩
    rw [edges_iff_hasEdge (Q := fun u v => f u ≠ f v) (fun u v h => h.symm)]
    simp only [mem_oneTo']
  | ec a =>
    refine does_graph' hc fun vs G _ hw _ => ?_
    by_cases h : ∃ v ∈ G.toGraph.verts, (G.toGraph.at v).length % 2 = 1
    · exact .inl ⟨(C54_even_coloring _ hw).1 h, .inl ⟨h, rfl⟩⟩
    · have h' : ∀ v ∈ G.toGraph.verts, (G.toGraph.at v).length % 2 = 0 := by
        intro v hv
        rcases Nat.mod_two_eq_zero_or_one (G.toGraph.at v).length with h0 | h0
        · exact h0
        · exact absurd ⟨v, hv, h0⟩ h
      exact .of_pure ((C54_even_coloring _ hw).2 h') (fun F e => C58_families_proper (.inr (.inr (.inr (.inr (.inr (.inr (.inr (.inr ⟨_, e⟩))))))))) (.inr ⟨h', rfl⟩)
  | ram s k n => exact .inl (.of_pure (C59_ramsey s k n) (fun F e => C58_more_families_proper (.inl ⟨_, _, _, e⟩)) rfl)
  | ptn isqrt n => exact .inl (.of_pure (C59_pythagorean isqrt n hc) (fun F e => C58_more_families_proper (.inr (.inl ⟨_, _, e⟩))) rfl)
  | cliquecoloring n k c =>
    obtain ⟨F, h1, h2, _⟩ := C60_clique_coloring n k c
    exact .inl (.of_pure ⟨F, h1, h2⟩ (fun F e => C58_more_families_proper (.inr (.inr (.inl ⟨_, _, _, e⟩)))) rfl)
  | domset alt d a =>
    exact does_graph' hc fun vs G _ hw _ => .of_pure (C61_dominating_set _ hw d alt) (fun F e => C58_more_families_proper (.inr (.inr (.inr (.inl ⟨_, _, _, e⟩))))) rfl
  | giso a1 a2 =>
    refine does_graph hc.1 fun vs G h1 _ => ?_
    exact does_graph' hc.2 fun vs G2 _ hw2 _ => .of_pure (C63_isomorphism _ _ h1.toGraph_wf hw2)
      (fun F e => C58_more_families_proper (.inr (.inr (.inr (.inr (.inr (.inl ⟨_, _, e⟩))))))) rfl
  | gauto a =>
    exact does_graph' hc fun vs G _ hw _ => .of_pure (C63_automorphism _ hw)
      (fun F e => C58_more_families_proper (.inr (.inr (.inr (.inr (.inr (.inr (.inl ⟨_, e⟩)))))))) rfl
  | subgraph a aT =>
    refine does_graph hc.1 fun vs G h1 _ => ?_
    exact does_graph' hc.2 fun vs G2 _ hw2 _ => .of_pure (C65_subgraph _ _ h1.toGraph_wf hw2)
      (fun F e => C58_more_families_proper (.inr (.inr (.inr (.inr (.inr (.inr (.inr (.inr (.inr (.inr (.inl ⟨_, _, _, e⟩)))))))))))) rfl
  | kclique k a =>
    exact does_graph' hc fun vs G _ hw _ => .of_pure (C65_clique _ hw k)
      (fun F e => C58_more_families_proper (.inr (.inr (.inr (.inr (.inr (.inr (.inr (.inr (.inr (.inr (.inl ⟨_, _, _, e⟩)))))))))))) rfl
  | kcliquebin k bits a =>
    have := does_graph (E := False) hc.1 (f := fun G => binaryClique G.toGraph (G.nodes.map Int.toNat) k bits)
      (Q := fun g r => (g.verts = [] ∧ r = none) ∨ (g.verts ≠ [] ∧ r = some (∃ K : Finset Nat, Homogeneous g true K ∧ K.card = k))) (fun vs G h1 h2 => .inl ?_)
    · rcases this with h | ⟨h1, h2 | h2⟩
      · exact .inl h
      · exact .inr ⟨h1, h2⟩
      · exact h2.elim
    · have hl : (G.nodes.map Int.toNat).length = G.toGraph.verts.length := by
        rw [h1.toNat_verts, List.length_map, h1.nodes.length_eq, List.length_map]
      have hpm : (G.nodes.map Int.toNat).Perm G.toGraph.verts := by
        rw [h1.toNat_verts]
        have := h1.nodes.map Int.toNat
        rwa [List.map_map, show Int.toNat ∘ Int.ofNat = id from rfl, List.map_id] at this
      by_cases h0 : G.toGraph.verts = []
      · refine .inl ⟨?_, .inl ⟨h0, rfl⟩⟩
        unfold binaryClique
        rw [if_pos (by rw [hl, h0]; rfl)]
      · refine .of_pure (C65_binary_clique G.toGraph _ (hpm.nodup_iff.2 (h1.toGraph_wf.sorted.imp fun h => Nat.ne_of_lt h)) (fun v => hpm.mem_iff) k bits ?_ (by rw [hl]; exact hc.2 _ h2))
          (fun F e => C58_more_families_proper (.inr (.inr (.inr (.inr (.inr (.inr (.inr (.inr (.inr (.inr (.inr ⟨_, _, _, _, e⟩)))))))))))) (.inr ⟨h0, rfl⟩)
        rw [hl]
        exact List.length_pos_iff.2 h0
  | ramlb k s a =>
    refine does_graph' hc fun vs G _ hw _ => ?_
    obtain ⟨F, h1, h2⟩ := C66_ramsey_witness_sound _ hw k s
    refine .of_pure ⟨F, h1, Iff.rfl⟩ (fun F e => C58_more_families_proper (.inr (.inr (.inr (.inr (.inr (.inr (.inr (.inr (.inr (.inr (.inl ⟨_, _, _, e⟩))))))))))))
      ⟨_, rfl, h2, ?_⟩
    rintro rfl h
    obtain ⟨F', h3, h4⟩ := C66_ramsey_witness_diag _ hw k
    rw [h1] at h3
    obtain rfl := (M.pure_inj _ _).1 h3
    exact h4.2 h
  | randkcnf rs k n m =>
    refine .inl ?_
    obtain ⟨q1, q2⟩ := C68_random_kcnf rs []
    rcases Nat.lt_or_ge n k with h | h
    · exact .inl ⟨q1 k n m (by omega), .inl ⟨.inl h, rfl⟩⟩
    obtain ⟨q3, q4⟩ := q2 k n m h (hc h)
    rcases Nat.lt_or_ge {c | Candidate k n [] c}.ncard m with h' | h'
    · exact .inl ⟨q3 h', .inl ⟨.inr h', rfl⟩⟩
    · obtain ⟨F, cs, e, _, _, h1, h2, h3, h4, _⟩ := q4 h'
      have hp : Cnfgen.Proper F.vars F.clauses := by
        have e' := e
        unfold randomKCNF at e'
        rw [if_neg (by omega), if_neg (by omega)] at e'
        obtain ⟨_, _, e'⟩ := (M.bind_eq_pure ..).1 e'
        exact (ofPartsStrict_coh e').proper
      exact .inr ⟨F, _, e, hp, .inr ⟨h, cs, h1, h2, h3, rfl⟩, hp.sat.trans (exists_congr h4)⟩
  | or p n =>
    obtain ⟨⟨F, e, _, h⟩, _⟩ := C69_simple p n
    have hp : Cnfgen.Proper F.vars F.clauses := (ofClauses_coh e).proper
    refine .inl (.inr ⟨F, _, e, hp, rfl, hp.sat.trans ?_⟩)
    constructor
    · rintro ⟨α, hα⟩
      rcases (h α).1 hα with ⟨i, hi, _⟩ | ⟨i, hi, _⟩ <;> omega
    · intro h0
      rcases Nat.eq_zero_or_pos p with rfl | hp0
      · exact ⟨fun _ => false, (h _).2 (.inr ⟨0, by omega, rfl⟩)⟩
      · exact ⟨fun _ => true, (h _).2 (.inl ⟨0, hp0, rfl⟩)⟩
  | and p n =>
    obtain ⟨_, ⟨F, e, _, h⟩, _⟩ := C69_simple p n
    have hp : Cnfgen.Proper F.vars F.clauses := (ofClauses_coh e).proper
    refine .inl (.inr ⟨F, _, e, hp, rfl, hp.sat.trans (iff_of_true ⟨fun s => decide (s.head? = some 'x'), (h _).2 ⟨?_, ?_⟩⟩ trivial)⟩)
    · intro i _; simp [rvar]
    · intro i _; simp [yvar]
  | empty =>
    obtain ⟨_, _, ⟨F, e, _, _, h⟩, _⟩ := C69_simple 0 0
    have hp : Cnfgen.Proper F.vars F.clauses := (ofClauses_coh e).proper
    exact .inl (.inr ⟨F, _, e, hp, rfl, hp.sat.trans (iff_of_true ⟨fun _ => true, h _⟩ trivial)⟩)
  | emptyclause =>
    obtain ⟨_, _, _, ⟨F, e, _, _, h⟩⟩ := C69_simple 0 0
    have hp : Cnfgen.Proper F.vars F.clauses := (ofClauses_coh e).proper
    exact .inl (.inr ⟨F, _, e, hp, rfl, hp.sat.trans (iff_of_false (fun ⟨α, h'⟩ => h α h') id)⟩)
  | peb d =>
    obtain ⟨F, h1, _, h2⟩ := (C64_pebbling d.get (dag_ok d).1).2 (dag_ok d).2
    exact .inl (.of_pure ⟨F, h1, h2.trans (iff_of_false (dag_nonempty d) id)⟩
      (fun F e => C58_more_families_proper (.inr (.inr (.inr (.inr (.inr (.inr (.inr (.inl ⟨_, e⟩))))))))) rfl)
  | stone s d =>
    rcases lt_or_ge s 0 with h | h
    · exact .inl (.inl ⟨(C64_stone id d.get (dag_ok d).1 s).1 (.inr h), .inl ⟨h, rfl⟩⟩)
    · obtain ⟨F, h1, h2⟩ := (C64_stone id d.get (dag_ok d).1 s).2 (dag_ok d).2 h
      exact .inl (.of_pure ⟨F, h1, h2.trans (iff_of_false (dag_nonempty d) id)⟩
        (fun F e => C58_more_families_proper (.inr (.inr (.inr (.inr (.inr (.inr (.inr (.inr (.inl ⟨_, _, e⟩)))))))))) (.inr ⟨h, rfl⟩))

end NDP.Cnfgen
