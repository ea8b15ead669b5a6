import Verif.Cnfgen.Pipeline
/-
  The numbers of the `cnfgen` sub-commands as `argparse` delivers them: the arguments are declared `type=int`, so they can be negative
  (`cnfgen php -1 3`).  `Commands.lean` has the same sub-commands with natural numbers.
  What networkx does with a negative number of vertices depends on its version: `complete_graph(-1)` and `empty_graph(-1)` are empty graphs before 2.0
  (the versions asked for in `software/cnfgen/requirements.txt` 2) and raise `NetworkXError`, an `Exception`, from 2.0 on.  This is the parameter `strict`.
-/
namespace NDP.Cnfgen
open NDP

/-! ### Model -/

/-- `range(1,n+1)`. -/
def rangeOne (n : Int) : List Nat := oneTo n.toNat

/-- `itertools.combinations(l,k)`: "r must be non-negative". -/
def pyCombinations {α : Type} (l : List α) (k : Int) : M (List (List α)) := if k < 0 then raise .valueError else pure (combinations l k.toNat)

/-- The order of `networkx.complete_graph(n)` and of `networkx.empty_graph(n)`. -/
def nxOrder (strict : Bool) (n : Int) : M Nat := if strict = true ∧ n < 0 then raise .exception else pure n.toNat

/-- `families/counting.py` 17-51. -/
def countingInt (m p : Int) : M (CNF Str) := do
  let tuples ← pyCombinations (List.range m.toNat) p
  CNF.ofClauses ((List.range m.toNat).flatMap fun el => equalTo ((tuples.filter fun t => decide (el ∈ t)).map tupleName) 1)

/-- `families/ramsey.py` 69-115. -/
def ramseyInt (s k n : Int) : M (CNF Str) := do
  let ss ← pyCombinations (rangeOne n) s
  let ks ← pyCombinations (rangeOne n) k
  CNF.ofPartsStrict ((pairs (rangeOne n)).map fun e => fmt2 "e".toList e.1 e.2)
    (ss.map (fun vs => (pairs vs).map fun e => (true, fmt2 "e".toList e.1 e.2)) ++ ks.map (fun vs => (pairs vs).map fun e => (false, fmt2 "e".toList e.1 e.2)))

/-- The sub-commands with numbers; the others are those of `Cmd`. -/
inductive ICmd where
  | php (pigeons holes : Int) (functional onto : Bool)
  | bphp (pigeons holes : Int) (bits : Nat)
  | op (n : Int) (total smart plant : Bool) (knuth : Int)
  | parity (n : Int)
  | count (m p : Int)
  | kcolor (k : Int) (a : GraphArgs)
  | ram (s k n : Int)
  | ptn (isqrt : Nat → Nat) (n : Int)
  | cliquecoloring (n k c : Int)
  | domset (alternative : Bool) (d : Int) (a : GraphArgs)
  | kclique (k : Int) (a : GraphArgs)
  | kcliquebin (k : Int) (bits : Nat) (a : GraphArgs)
  | ramlb (k s : Int) (a : GraphArgs)
  | randkcnf (rs : RandomSource) (k n m : Int)
  | or (p n : Int)
  | and (p n : Int)
  | other (c : Cmd)

/-- The `build_cnf` functions (`families/*.py`, see `Cmd.cnf`).  `php`, `bphp`, `kcolor`, `ptn`, `cliquecoloring`, `domset` and `kcliquebin` use their numbers only in
`range(1,n+1)` (`pigeonhole.py` 84-85, 185; `coloring.py` 170; `ramsey.py` 57, 61; `cliquecoloring.py` 70-103; `dominatingset.py` 71-101; `subgraph.py` 209, 219; the `ValueError` of
`dominatingset.py` 44 is made, not raised); the graph is obtained before the number is looked at. -/
def ICmd.cnf (strict : Bool) : ICmd → M (CNF Str)
  | .php p h f o => pigeonhole (rangeOne p).length (rangeOne h).length f o
  | .bphp p h bits => binaryPigeonhole (rangeOne p).length (rangeOne h).length bits
  | .op n t s p k => do ordering (← nxOrder strict n) t s p k
  | .parity n => countingInt n 2
  | .count m p => countingInt m p
  | .kcolor k a => do graphColoring (← obtainGraph a).toGraph (rangeOne k) true
  | .ram s k n => ramseyInt s k n
  | .ptn isqrt n => pythagorean isqrt (rangeOne n).length
  | .cliquecoloring n k c => cliqueColoring (rangeOne n).length (rangeOne k).length (rangeOne c).length
  | .domset alt d a => do dominatingSet (← obtainGraph a).toGraph (rangeOne d).length alt
  | .kclique k a => do
    let G ← obtainGraph a
    cliqueFormula G.toGraph (← nxOrder strict k)
  | .kcliquebin k bits a => do
    let G ← obtainGraph a
    binaryClique G.toGraph (G.nodes.map Int.toNat) (rangeOne k).length bits
  | .ramlb k s a => do
    let G ← obtainGraph a
    let k ← nxOrder strict k
    ramseyWitness G.toGraph k (← nxOrder strict s)
  | .randkcnf rs k n m => randomKCNF rs k n m []
  | .or p n => orFormula p n
  | .and p n => andFormula p n
  | .other c => c.cnf

/-- The parsed command line (as `Cmd.args`). -/
def ICmd.args (strict : Bool) (c : ICmd) (verbose : Bool) (hdr : CNF Str → Str) : GenArgs Str :=
  ⟨verbose, .text, do let F ← c.cnf strict; pure (hdr F, F)⟩

/-! ### Specification -/

/-- Every negative number replaced by 0. -/
def ICmd.floor : ICmd → Cmd
  | .php p h f o => .php p.toNat h.toNat f o
  | .bphp p h bits => .bphp p.toNat h.toNat bits
  | .op n t s p k => .op n.toNat t s p k
  | .parity n => .parity n.toNat
  | .count m p => .count m.toNat p.toNat
  | .kcolor k a => .kcolor k.toNat a
  | .ram s k n => .ram s.toNat k.toNat n.toNat
  | .ptn isqrt n => .ptn isqrt n.toNat
  | .cliquecoloring n k c => .cliquecoloring n.toNat k.toNat c.toNat
  | .domset alt d a => .domset alt d.toNat a
  | .kclique k a => .kclique k.toNat a
  | .kcliquebin k bits a => .kcliquebin k.toNat bits a
  | .ramlb k s a => .ramlb k.toNat s.toNat a
  | .randkcnf rs k n m => .randkcnf rs k.toNat n.toNat m.toNat
  | .or p n => .or p.toNat n.toNat
  | .and p n => .and p.toNat n.toNat
  | .other c => c

/-- The numbers that are refused with a message: a negative size of the parts, a negative size of a forbidden set, any negative number for random formulas. -/
def ICmd.BadNumber : ICmd → Prop
  | .count _ p => p < 0
  | .ram s k _ => s < 0 ∨ k < 0
  | .randkcnf _ k n m => k < 0 ∨ n < 0 ∨ m < 0
  | _ => False

/-- The numbers given to networkx as a number of vertices. -/
def ICmd.NegativeOrder : ICmd → Prop
  | .op n _ _ _ _ => n < 0
  | .kclique k _ => k < 0
  | .ramlb k s _ => k < 0 ∨ s < 0
  | _ => False

/-! ### Proofs -/

theorem length_rangeOne (n : Int) : (rangeOne n).length = n.toNat := by simp [rangeOne, oneTo]

theorem nxOrder_ok {strict : Bool} {n : Int} (h : ¬ (strict = true ∧ n < 0)) : nxOrder strict n = pure n.toNat := if_neg h
theorem nxOrder_bad {strict : Bool} {n : Int} (hs : strict = true) (h : n < 0) : nxOrder strict n = raise .exception := if_pos ⟨hs, h⟩

theorem pyCombinations_ok {α : Type} (l : List α) {k : Int} (h : ¬ k < 0) : pyCombinations l k = pure (combinations l k.toNat) := if_neg h

theorem countingInt_ok (m : Int) {p : Int} (h : ¬ p < 0) : countingInt m p = counting m.toNat p.toNat := by
  unfold countingInt
  rw [pyCombinations_ok _ h, M.pure_bind]
  rfl

theorem ramseyInt_ok {s k : Int} (n : Int) (hs : ¬ s < 0) (hk : ¬ k < 0) : ramseyInt s k n = ramsey s.toNat k.toNat n.toNat := by
  unfold ramseyInt
  rw [pyCombinations_ok _ hs, M.pure_bind, pyCombinations_ok _ hk, M.pure_bind]
  rfl

/-- Numbers that are neither refused nor given to a strict networkx: a negative number is as 0. -/
theorem ICmd.cnf_floor {strict : Bool} {c : ICmd} (hb : ¬ c.BadNumber) (hn : ¬ (strict = true ∧ c.NegativeOrder)) : c.cnf strict = c.floor.cnf := by
  cases c with
  | php p h f o => simp only [ICmd.cnf, length_rangeOne]; rfl
  | bphp p h bits => simp only [ICmd.cnf, length_rangeOne]; rfl
  | op n t s p k =>
    show (nxOrder strict n >>= fun n => ordering n t s p k) = _
    rw [nxOrder_ok hn, M.pure_bind]; rfl
  | parity n => exact countingInt_ok n (by decide)
  | count m p => exact countingInt_ok m hb
  | kcolor k a => rfl
  | ram s k n => exact ramseyInt_ok n (fun h => hb (.inl h)) (fun h => hb (.inr h))
  | ptn isqrt n => simp only [ICmd.cnf, length_rangeOne]; rfl
  | cliquecoloring n k c => simp only [ICmd.cnf, length_rangeOne]; rfl
  | domset alt d a => simp only [ICmd.cnf, length_rangeOne]; rfl
  | kclique k a =>
    simp only [ICmd.cnf, nxOrder_ok hn, M.pure_bind]; rfl
  | kcliquebin k bits a => simp only [ICmd.cnf, length_rangeOne]; rfl
  | ramlb k s a =>
    have h1 : ¬ (strict = true ∧ k < 0) := fun h => hn ⟨h.1, .inl h.2⟩
    have h2 : ¬ (strict = true ∧ s < 0) := fun h => hn ⟨h.1, .inr h.2⟩
    simp only [ICmd.cnf, nxOrder_ok h1, nxOrder_ok h2, M.pure_bind]; rfl
  | randkcnf rs k n m =>
    have h : 0 ≤ k ∧ 0 ≤ n ∧ 0 ≤ m := by
      simp only [ICmd.BadNumber] at hb; omega
    show randomKCNF rs k n m [] = randomKCNF rs (k.toNat : Int) (n.toNat : Int) (m.toNat : Int) []
    rw [Int.toNat_of_nonneg h.1, Int.toNat_of_nonneg h.2.1, Int.toNat_of_nonneg h.2.2]
  | or p n =>
    show orFormula p n = orFormula (p.toNat : Int) (n.toNat : Int)
    simp only [orFormula, Int.toNat_natCast]
  | and p n =>
    show andFormula p n = andFormula (p.toNat : Int) (n.toNat : Int)
    simp only [andFormula, Int.toNat_natCast]
  | other c => rfl

/-- Refused numbers. -/
theorem ICmd.cnf_bad (strict : Bool) {c : ICmd} (hb : c.BadNumber) : c.cnf strict = raise .valueError := by
  cases c with
  | count m p =>
    show countingInt m p = _
    unfold countingInt pyCombinations
    rw [if_pos (show p < 0 from hb), M.raise_bind]
  | ram s k n =>
    show ramseyInt s k n = _
    unfold ramseyInt pyCombinations
    by_cases h : s < 0
    · rw [if_pos h, M.raise_bind]
    · rw [if_neg h, M.pure_bind, if_pos (hb.resolve_left h), M.raise_bind]
  | randkcnf rs k n m =>
    show randomKCNF rs k n m [] = _
    unfold randomKCNF
    rw [if_pos (by simp only [ICmd.BadNumber] at hb; omega)]
  | _ => exact hb.elim

/-- **C93, the generator.** For all numbers, negative or not: a refused number gives a message; otherwise, with the networkx versions asked for, the sub-command does what it
documents, a negative number counting as 0.  Only `--addedges` fails otherwise. -/
theorem C93_command {c : ICmd} (hc : c.floor.Legal) :
    (c.BadNumber → ∀ strict, c.cnf strict = raise .valueError) ∧
    (¬ c.BadNumber → Does (c.cnf false) c.floor.Answers ∨ (c.cnf false = raise .runtimeError ∧ c.floor.AddsEdges)) := by
  refine ⟨fun h s => ICmd.cnf_bad s h, fun h => ?_⟩
  rw [ICmd.cnf_floor h (by simp)]
  exact C84_command hc

/-- **C93, the tool.** `cnfgen <sub-command> -T t₁ -T t₂ …` with any numbers, with the networkx versions asked for: a message if the number is refused; otherwise as with 0 for the negative
numbers, a message or a DIMACS file. -/
theorem C93_cnfgen {c : ICmd} (hc : c.floor.Legal) (parse : List Str → Option (GenArgs Str)) (parseT : List Str → Option (Option Trans))
    (gen : List Str) (ts : List (List Str)) (hg : "-T".toList ∉ gen) (ht : ∀ t ∈ ts, "-T".toList ∉ t) (verbose : Bool) (hdr : CNF Str → Str)
    (hp : parse gen = some (c.args false verbose hdr)) {Ts : List Trans} (hT : List.Forall₂ (fun t T => parseT t = some (some T)) ts Ts)
    (hch : ∀ T ∈ Ts, T.Chance ∧ T.Faithful ∧ ¬ T.IsComp) :
    (cnfgen id parse parseT (cmdLine gen ts) = pure none ∧ (c.BadNumber ∨ c.floor.Answers none)) ∨
    (¬ c.BadNumber ∧ ∃ out n cs P, cnfgen id parse parseT (cmdLine gen ts) = pure (some out) ∧ Prints out n cs ∧ c.floor.Answers (some P) ∧ (Spec.Satisfiable cs ↔ P)) ∨
    (cnfgen id parse parseT (cmdLine gen ts) = raise .runtimeError ∧ c.floor.AddsEdges) := by
  by_cases hb : c.BadNumber
  · obtain ⟨_, h2⟩ := C78_cnfgen (sh := id) Function.injective_id parse parseT gen ts hg ht hp hT (fun T h => (hch T h).1) rfl
    refine .inl ⟨?_, .inl hb⟩
    have := h2 .valueError (by show (c.cnf false >>= _) = _; rw [ICmd.cnf_bad _ hb, M.raise_bind])
    rw [this, if_pos (.inl rfl)]
  · have he : c.args false verbose hdr = c.floor.args verbose hdr := by
      unfold ICmd.args Cmd.args
      rw [ICmd.cnf_floor hb (by simp)]
    rcases C84_cnfgen hc parse parseT gen ts hg ht verbose hdr (he ▸ hp) hT hch with ⟨h1, h2⟩ | h | h
    · exact .inl ⟨h1, .inr h2⟩
    · exact .inr (.inl ⟨hb, h⟩)
    · exact .inr (.inr h)

/-- **C93, a later networkx.** From 2.0 on: the same, except that `op`, `kclique` and `ramlb` with a negative number end in a traceback, unless the graph is refused before. -/
theorem C93_strict {c : ICmd} (hc : c.floor.Legal) :
    (¬ c.NegativeOrder → c.cnf true = c.cnf false) ∧
    (c.NegativeOrder → c.cnf true = raise .exception ∨ (∃ a, ((∃ k, c = .kclique k a) ∨ ∃ k s, c = .ramlb k s a) ∧
      ((c.cnf true = raise .valueError ∧ a.Refused) ∨ (c.cnf true = raise .runtimeError ∧ ∃ k, a.addedges = some k)))) := by
  constructor
  · intro h
    by_cases hb : c.BadNumber
    · rw [ICmd.cnf_bad _ hb, ICmd.cnf_bad _ hb]
    · rw [ICmd.cnf_floor hb (by simp [h]), ICmd.cnf_floor hb (by simp)]
  · intro h
    cases c with
    | op n t s p k =>
      refine .inl ?_
      show (nxOrder true n >>= fun n => ordering n t s p k) = _
      rw [nxOrder_bad rfl h, M.raise_bind]
    | kclique k a =>
      have hx : nxOrder true k = raise .exception := nxOrder_bad rfl h
      simp only [ICmd.cnf, hx, M.raise_bind]
      rcases C84_obtain_graph (a := a) hc with ⟨h1, h2⟩ | ⟨h1, ⟨G, vs, h2, h3, h4⟩ | ⟨h2, h3⟩⟩
      · exact .inr ⟨a, .inl ⟨k, rfl⟩, .inl ⟨by rw [h2, M.raise_bind], h1⟩⟩
      · exact .inl (by rw [h2, M.pure_bind])
      · exact .inr ⟨a, .inl ⟨k, rfl⟩, .inr ⟨by rw [h2, M.raise_bind], h3⟩⟩
    | ramlb k s a =>
      have hx : ∀ G : Nx Int, (nxOrder true k >>= fun k => nxOrder true s >>= fun s => ramseyWitness G.toGraph k s) = raise .exception := by
        intro G
        by_cases hk : k < 0
        · rw [nxOrder_bad rfl hk, M.raise_bind]
        · rw [nxOrder_ok (by simp [hk]), M.pure_bind, nxOrder_bad rfl (h.resolve_left hk), M.raise_bind]
      simp only [ICmd.cnf, hx]
      rcases C84_obtain_graph (a := a) hc with ⟨h1, h2⟩ | ⟨h1, ⟨G, vs, h2, h3, h4⟩ | ⟨h2, h3⟩⟩
      · exact .inr ⟨a, .inr ⟨k, s, rfl⟩, .inl ⟨by rw [h2, M.raise_bind], h1⟩⟩
      · exact .inl (by rw [h2, M.pure_bind])
      · exact .inr ⟨a, .inr ⟨k, s, rfl⟩, .inr ⟨by rw [h2, M.raise_bind], h3⟩⟩
    | _ => exact h.elim

/-- The documented "must not raise exceptions" of `command_line_utility` (`cnfgen.py` 134) fails with networkx 2: `cnfgen op -1`. -/
theorem C93_no_exceptions_refuted (parse : List Str → Option (GenArgs Str)) (parseT : List Str → Option (Option Trans)) (verbose : Bool) (hdr : CNF Str → Str)
    (hp : parse ["op".toList, "-1".toList] = some ((ICmd.op (-1) false false false 0).args true verbose hdr)) :
    cnfgen id parse parseT (cmdLine ["op".toList, "-1".toList] []) = raise .exception := by
  obtain ⟨_, h2⟩ := C78_cnfgen (sh := id) Function.injective_id parse parseT ["op".toList, "-1".toList] [] (by decide) (by simp) hp (.nil) (by simp) rfl
  have := h2 .exception (by
    show ((nxOrder true (-1) >>= fun n => ordering n false false false 0) >>= _) = _
    rw [nxOrder_bad rfl (by decide), M.raise_bind, M.raise_bind])
  rw [this, if_neg (by simp)]

/-- `cnfgen php -1 -2`: the empty formula, which can be satisfied; `cnfgen count 4 -2`: a message. -/
example : (ICmd.php (-1) (-2) false false).floor.Legal ∧ ¬ (ICmd.php (-1) (-2) false false).BadNumber ∧
    (ICmd.php (-1) (-2) false false).floor.Answers (some True) ∧ (ICmd.count 4 (-2)).BadNumber ∧ (ICmd.count 4 (-2)).floor.Legal :=
  ⟨trivial, id, by simp [ICmd.floor, Cmd.Answers], by simp [ICmd.BadNumber], trivial⟩

end NDP.Cnfgen
