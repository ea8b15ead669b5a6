import Verif.Cnfgen.Pipeline
import Verif.Cnfgen.Models3
/-
  The formulas of the sub-commands of `cnfgen`, assignment by assignment (C87).
-/
namespace NDP.Cnfgen
open NDP

/-! ### Specification -/

open Classical in
/-- What the variables (`V`) and the satisfying assignments (`S`) of the formula of a sub-command are documented to be. -/
def Cmd.Solutions : Cmd → (Str → Prop) → ((Str → Bool) → Prop) → Prop
  | .php p h f o, V, S => (∀ x, V x ↔ ∃ i j, (1 ≤ i ∧ i ≤ p) ∧ (1 ≤ j ∧ j ≤ h) ∧ x = fmt2 "p".toList i j) ∧ ∀ α, S α ↔
      (∀ i, 1 ≤ i ∧ i ≤ p → ∃ j, (1 ≤ j ∧ j ≤ h) ∧ α (fmt2 "p".toList i j) = true) ∧
      (o = true → ∀ j, 1 ≤ j ∧ j ≤ h → ∃ i, (1 ≤ i ∧ i ≤ p) ∧ α (fmt2 "p".toList i j) = true) ∧
      (∀ j, 1 ≤ j ∧ j ≤ h → ∀ i, 1 ≤ i ∧ i ≤ p → ∀ i', 1 ≤ i' ∧ i' ≤ p → α (fmt2 "p".toList i j) = true → α (fmt2 "p".toList i' j) = true → i = i') ∧
      (f = true → ∀ i, 1 ≤ i ∧ i ≤ p → ∀ j, 1 ≤ j ∧ j ≤ h → ∀ j', 1 ≤ j' ∧ j' ≤ h → α (fmt2 "p".toList i j) = true → α (fmt2 "p".toList i j') = true → j = j')
  | .bphp p h bits, V, S => (∀ x, V x ↔ ∃ i b, (1 ≤ i ∧ i ≤ p) ∧ b < bits ∧ x = fmt2 "Y".toList i b) ∧ ∀ α, S α ↔
      (∀ i, 1 ≤ i ∧ i ≤ p → binVal α (fmt2 "Y".toList i) bits < h) ∧
      ∀ i i', 1 ≤ i → i < i' → i' ≤ p → binVal α (fmt2 "Y".toList i) bits ≠ binVal α (fmt2 "Y".toList i') bits
  | .op n total smart plant knuth, V, S => (∀ x, V x ↔ ∃ u v, u < n ∧ v < n ∧ u ≠ v ∧ (smart = true → u < v) ∧ x = xn u v) ∧ ∀ α, S α ↔
      (∀ v < n, (plant = true → v + 1 ≠ n) → ∃ u < n, u ≠ v ∧ ordLt smart α u v) ∧
      (∀ a < n, ∀ b < n, ∀ c < n, a ≠ b → b ≠ c → a ≠ c → TripleUsed total smart knuth a b c →
        ordLt smart α a b → ordLt smart α b c → ordLt smart α a c) ∧
      (∀ a < n, ∀ b < n, a ≠ b → ¬ (ordLt smart α a b ∧ ordLt smart α b a)) ∧
      (total = true → ∀ a < n, ∀ b < n, a ≠ b → ordLt smart α a b ∨ ordLt smart α b a)
  | .gop a total smart plant knuth, V, S => ∃ g, a.Gives g ∧
      (∀ x, V x ↔ ∃ u ∈ g.verts, ∃ v ∈ g.verts, u ≠ v ∧ (smart = true → u < v) ∧ x = xn u v) ∧ ∀ α, S α ↔
      (∀ v ∈ (if plant then g.verts.dropLast else g.verts), ∃ u ∈ g.verts, g.hasEdge v u = true ∧ ordLt smart α u v) ∧
      (∀ a ∈ g.verts, ∀ b ∈ g.verts, ∀ c ∈ g.verts, a ≠ b → b ≠ c → a ≠ c → TripleUsed total smart knuth a b c →
        ordLt smart α a b → ordLt smart α b c → ordLt smart α a c) ∧
      (∀ a ∈ g.verts, ∀ b ∈ g.verts, a ≠ b → ¬ (ordLt smart α a b ∧ ordLt smart α b a)) ∧
      (total = true → ∀ a ∈ g.verts, ∀ b ∈ g.verts, a ≠ b → ordLt smart α a b ∨ ordLt smart α b a)
  | .parity n, V, S => (∀ x, V x ↔ ∃ i j, i < j ∧ j < n ∧ x = tupleName [i, j]) ∧ ∀ α, S α ↔
      ∀ e < n, ∃ u < n, u ≠ e ∧ α (tupleName [min u e, max u e]) = true ∧ ∀ w < n, w ≠ e → α (tupleName [min w e, max w e]) = true → w = u
  | .matching a, V, S => ∃ g, a.Gives g ∧ (∀ x, V x ↔ ∃ e ∈ g.edges, x = xn (min e.1 e.2) (max e.1 e.2)) ∧ ∀ α, S α ↔
      ∀ v ∈ g.verts, ∃ u, g.hasEdge u v = true ∧ α (xn (min u v) (max u v)) = true ∧ ∀ w, g.hasEdge w v = true → α (xn (min w v) (max w v)) = true → w = u
  | .count n p, V, S => (∀ x, V x ↔ ∃ t : List Nat, t.Pairwise (· < ·) ∧ (∀ e ∈ t, e < n) ∧ t.length = p ∧ t ≠ [] ∧ x = tupleName t) ∧ ∀ α, S α ↔
      ∀ e < n, ∃ t : List Nat, (t.Pairwise (· < ·) ∧ (∀ e ∈ t, e < n) ∧ t.length = p) ∧ e ∈ t ∧ α (tupleName t) = true ∧
        ∀ s : List Nat, s.Pairwise (· < ·) ∧ (∀ e ∈ s, e < n) ∧ s.length = p → e ∈ s → α (tupleName s) = true → s = t
  | .tseitin ch _ a, V, S => ∃ g, a.Gives g ∧ (∀ x, V x ↔ ∃ e ∈ g.edges, x = fmt2 "E".toList e.1 e.2) ∧ ∃ cs, ChargesOK ch g.verts.length cs ∧ ∀ α, S α ↔
      ∀ v ∈ g.verts, ((g.at v).filter fun e => α (fmt2 "E".toList e.1 e.2)).length % 2 = if cs.getD (g.verts.idxOf v) false then 1 else 0
  | .kcolor k a, V, S => ∃ g, a.Gives g ∧ (∀ x, V x ↔ ∃ v ∈ g.verts, ∃ c, (1 ≤ c ∧ c ≤ k) ∧ x = xn v c) ∧ ∀ α, S α ↔
      ∃ f : Nat → Nat, (∀ v ∈ g.verts, (1 ≤ f v ∧ f v ≤ k) ∧ ∀ c, 1 ≤ c → c ≤ k → (α (xn v c) = true ↔ c = f v)) ∧ ∀ u v, g.hasEdge u v = true → f u ≠ f v
  | .ec a, V, S => ∃ g, a.Gives g ∧ (∀ x, V x ↔ ∃ e ∈ g.edges, x = xn (min e.1 e.2) (max e.1 e.2)) ∧ ∀ α, S α ↔
      ∀ v ∈ g.verts, 2 * ((g.at v).filter fun e => α (xn (min e.1 e.2) (max e.1 e.2))).length = (g.at v).length
  | .ram s k n, V, S => (∀ x, V x ↔ ∃ u v, 1 ≤ u ∧ u < v ∧ v ≤ n ∧ x = fmt2 "e".toList u v) ∧ ∀ α, S α ↔
      (∀ T : Finset Nat, (∀ v ∈ T, 1 ≤ v ∧ v ≤ n) → T.card = s → ∃ u ∈ T, ∃ v ∈ T, u < v ∧ α (fmt2 "e".toList u v) = true) ∧
      (∀ T : Finset Nat, (∀ v ∈ T, 1 ≤ v ∧ v ≤ n) → T.card = k → ∃ u ∈ T, ∃ v ∈ T, u < v ∧ α (fmt2 "e".toList u v) = false)
  | .ptn _ n, V, S => (∀ x, V x ↔ ∃ i, 1 ≤ i ∧ i ≤ n ∧ x = fmt1 "x".toList i) ∧ ∀ α, S α ↔
      ∀ x y z, 1 ≤ x → 1 ≤ y → z ≤ n → x ^ 2 + y ^ 2 = z ^ 2 →
        ¬ (α (fmt1 "x".toList x) = α (fmt1 "x".toList y) ∧ α (fmt1 "x".toList y) = α (fmt1 "x".toList z))
  | .cliquecoloring n k c, V, S => (∀ x, V x ↔ (∃ u v, 1 ≤ u ∧ u < v ∧ v ≤ n ∧ x = fmt2 ['e'] u v) ∨
      (∃ i v, (1 ≤ i ∧ i ≤ k) ∧ (1 ≤ v ∧ v ≤ n) ∧ x = fmt2 ['q'] i v) ∨ ∃ v l, (1 ≤ v ∧ v ≤ n) ∧ (1 ≤ l ∧ l ≤ c) ∧ x = fmt2 ['r'] v l) ∧ ∀ α, S α ↔
      ∃ q r : Nat → Nat,
        (∀ i, 1 ≤ i → i ≤ k → (1 ≤ q i ∧ q i ≤ n) ∧ ∀ v, 1 ≤ v → v ≤ n → (α (fmt2 ['q'] i v) = true ↔ v = q i)) ∧
        (∀ v, 1 ≤ v → v ≤ n → (1 ≤ r v ∧ r v ≤ c) ∧ ∀ l, 1 ≤ l → l ≤ c → (α (fmt2 ['r'] v l) = true ↔ l = r v)) ∧
        (∀ i j, 1 ≤ i → i < j → j ≤ k → q i ≠ q j ∧ α (fmt2 ['e'] (min (q i) (q j)) (max (q i) (q j))) = true) ∧
        (∀ u v, 1 ≤ u → u < v → v ≤ n → α (fmt2 ['e'] u v) = true → r u ≠ r v)
  | .domset alternative d a, V, S => ∃ g, a.Gives g ∧ (∀ x, V x ↔ (∃ v ∈ g.verts, x = fmt1 ['x'] v) ∨ ∃ v ∈ g.verts, ∃ i, (1 ≤ i ∧ i ≤ d) ∧ x = fmt2 ['g'] v i) ∧ ∀ α, S α ↔
      Dominates g (fun v => α (fmt1 ['x'] v) = true) ∧ if alternative then
        ∃ f : Nat → Nat, (∀ v ∈ g.verts, α (fmt1 ['x'] v) = true → (1 ≤ f v ∧ f v ≤ d) ∧ ∀ i, 1 ≤ i ∧ i ≤ d → (α (fmt2 ['g'] v i) = true ↔ i = f v)) ∧
          ∀ u ∈ g.verts, ∀ v ∈ g.verts, u ≠ v → α (fmt1 ['x'] u) = true → α (fmt1 ['x'] v) = true → f u ≠ f v
      else (∀ v ∈ g.verts, α (fmt1 ['x'] v) = true ↔ ∃ i, (1 ≤ i ∧ i ≤ d) ∧ α (fmt2 ['g'] v i) = true) ∧
        (∀ u ∈ g.verts, ∀ v ∈ g.verts, u < v → ∀ i j, (1 ≤ i ∧ i ≤ d) → (1 ≤ j ∧ j ≤ d) → α (fmt2 ['g'] u i) = true → α (fmt2 ['g'] v j) = true → i < j)
  | .giso a1 a2, V, S => ∃ g1 g2, a1.Gives g1 ∧ a2.Gives g2 ∧ (∀ x, V x ↔ ∃ u ∈ g1.verts, ∃ v ∈ g2.verts, x = fmt2 ['x'] u v) ∧ ∀ α, S α ↔
      ∃ f : Nat → Nat, g1.IsIso g2 f ∧ ∀ u ∈ g1.verts, ∀ v ∈ g2.verts, (α (fmt2 ['x'] u v) = true ↔ v = f u)
  | .gauto a, V, S => ∃ g, a.Gives g ∧ (∀ x, V x ↔ ∃ u ∈ g.verts, ∃ v ∈ g.verts, x = fmt2 ['x'] u v) ∧ ∀ α, S α ↔
      ∃ f : Nat → Nat, g.IsIso g f ∧ (∃ v ∈ g.verts, f v ≠ v) ∧ ∀ u ∈ g.verts, ∀ v ∈ g.verts, (α (fmt2 ['x'] u v) = true ↔ v = f u)
  | .subgraph a aT, V, S => ∃ g t, a.Gives g ∧ aT.Gives t ∧ (∀ x, V x ↔ ∃ i j, i < t.verts.length ∧ j < g.verts.length ∧ x = fmt2 ['S'] i j) ∧ ∀ α, S α ↔
      ∃ f : Nat → Nat, (∀ i < t.verts.length, ∀ j < g.verts.length, (α (fmt2 ['S'] i j) = true ↔ j = f i)) ∧
        Placement t.verts.length g.verts.length false f ∧ Fits g t f
  | .kclique k a, V, S => ∃ g, a.Gives g ∧ (∀ x, V x ↔ ∃ i j, i < k ∧ j < g.verts.length ∧ x = fmt2 ['S'] i j) ∧ ∀ α, S α ↔
      ∃ f : Nat → Nat, (∀ i < k, ∀ j < g.verts.length, (α (fmt2 ['S'] i j) = true ↔ j = f i)) ∧ (∀ i < k, f i < g.verts.length) ∧
        ∀ i j, i < j → j < k → f i < f j ∧ g.hasEdge (g.verts.getD (f i) 0) (g.verts.getD (f j) 0) = true
  | .kcliquebin k bits a, V, S => ∃ g, a.Gives g ∧ ∃ nodes : List Nat, nodes.Perm g.verts ∧ (∀ x, V x ↔ ∃ i b, (1 ≤ i ∧ i ≤ k) ∧ b < bits ∧ x = fmt2 "Y".toList i b) ∧
      ∀ α, S α ↔ (∀ i, 1 ≤ i ∧ i ≤ k → binVal α (fmt2 "Y".toList i) bits < nodes.length) ∧
        ∀ i j, 1 ≤ i → i < j → j ≤ k → binVal α (fmt2 "Y".toList i) bits < binVal α (fmt2 "Y".toList j) bits ∧
          g.hasEdge (nodes.getD (binVal α (fmt2 "Y".toList i) bits) 0) (nodes.getD (binVal α (fmt2 "Y".toList j) bits) 0) = true
  | .ramlb k s a, V, S => ∃ g, a.Gives g ∧ (∀ x, V x ↔ x = ['c'] ∨ ∃ i j, i < max k s ∧ j < g.verts.length ∧ x = fmt2 ['S'] i j) ∧ ∀ α, S α ↔
      ∃ f : Nat → Nat, (∀ i < max k s, ∀ j < g.verts.length, (α (fmt2 ['S'] i j) = true ↔ j = f i)) ∧ (∀ i < max k s, f i < g.verts.length) ∧
        (∀ i j, i < j → j < max k s → f i < f j) ∧
        (α ['c'] = false → ∀ i j, i < j → j < k → g.hasEdge (g.verts.getD (f i) 0) (g.verts.getD (f j) 0) = true) ∧
        (α ['c'] = true → ∀ i j, i < j → j < s → g.hasEdge (g.verts.getD (f i) 0) (g.verts.getD (f j) 0) = false)
  | .randkcnf _ k n m, V, S => (∀ x, V x ↔ ∃ i, 1 ≤ i ∧ i ≤ n ∧ x = rvar i) ∧ ∃ cs : List (List (Lit Str)), cs.length = m ∧ cs.Nodup ∧
      (∀ c ∈ cs, Candidate k n [] c) ∧ ∀ α, S α ↔ AllTrue α cs
  | .or p n, V, S => (∀ x, V x ↔ (∃ i < p, x = rvar i) ∨ ∃ i < n, x = yvar i) ∧ ∀ α, S α ↔ (∃ i < p, α (rvar i) = true) ∨ ∃ i < n, α (yvar i) = false
  | .and p n, V, S => (∀ x, V x ↔ (∃ i < p, x = rvar i) ∨ ∃ i < n, x = yvar i) ∧ ∀ α, S α ↔ (∀ i < p, α (rvar i) = true) ∧ ∀ i < n, α (yvar i) = false
  | .empty, V, S => (∀ x, ¬ V x) ∧ ∀ α, S α
  | .emptyclause, V, S => (∀ x, ¬ V x) ∧ ∀ α, ¬ S α
  | .peb d, V, S => (∀ x, V x ↔ x ∈ d.get.verts) ∧ ∀ α, S α ↔
      (∀ v ∈ d.get.verts, (∀ p, (p, v) ∈ d.get.edges → α p = true) → α v = true) ∧ ∀ v ∈ d.get.verts, (∀ w, (v, w) ∉ d.get.edges) → α v = false
  | .stone s d, V, S => (∀ x, V x ↔ (∃ v ∈ d.get.verts, ∃ j, (1 ≤ j ∧ j ≤ s.toNat) ∧ x = fmtV id 'P' v j) ∨ ∃ j, (1 ≤ j ∧ j ≤ s.toNat) ∧ x = fmt1 ['R'] j) ∧
      ∀ α, S α ↔ (∀ v ∈ d.get.verts, ∃ j, (1 ≤ j ∧ j ≤ s.toNat) ∧ α (fmtV id 'P' v j) = true) ∧
        ∀ v ∈ d.get.verts, StoneRule d.get.edges (fun _ => oneTo s.toNat) (fun v j => α (fmtV id 'P' v j) = true) (fun j => α (fmt1 ['R'] j) = true) v

/-- **C87, the names.** The functions above that make names out of numbers, spelled out. -/
theorem C87_names (p : Str) (i j : Nat) (t : List Nat) :
    fmt1 p i = p ++ "_{".toList ++ natStr i ++ "}".toList ∧ fmt2 p i j = p ++ "_{".toList ++ natStr i ++ ",".toList ++ natStr j ++ "}".toList ∧
    xn i j = "x_{".toList ++ natStr i ++ ",".toList ++ natStr j ++ "}".toList ∧ tupleName t = "Y_{{".toList ++ joinWith ",".toList (t.map natStr) ++ "}}".toList ∧
    rvar i = "x_".toList ++ natStr i ∧ yvar i = "y_".toList ++ natStr i ∧
    fmtV id 'P' p j = "P_{".toList ++ p ++ ",".toList ++ natStr j ++ "}".toList := by
  refine ⟨?_, ?_, ?_, rfl, rfl, rfl, ?_⟩
  · simp [fmt1]
  · simp [fmt2]
  · simp [xn, fmt2]
  · simp [fmtV]

example : fmt2 "p".toList 3 12 = "p_{3,12}".toList ∧ tupleName [0, 2, 10] = "Y_{{0,2,10}}".toList ∧ rvar 7 = "x_7".toList := by decide

/-! ### Proofs -/

theorem got_graph {a : GraphArgs} (ha : a.Legal) {f : Nx Int → M (CNF Str)} {F : CNF Str} (e : obtainGraph a >>= f = pure F) :
    ∃ G vs, Plain vs G ∧ a.Gives G.toGraph ∧ G.toGraph.Wf ∧ f G = pure F := by
  obtain ⟨G, e1, e2⟩ := M.bind_eq_pure.1 e
  rcases C84_obtain_graph ha with ⟨_, h⟩ | ⟨_, ⟨G', vs, h, h1, h2⟩ | ⟨h, _⟩⟩
  · rw [h] at e1; simp at e1
  · obtain rfl := (M.pure_inj _ _).1 (e1.symm.trans h)
    exact ⟨G, vs, h1, h2, h1.toGraph_wf, e2⟩
  · rw [h] at e1; simp at e1

theorem C87_command {c : Cmd} (hc : c.Legal) {F : CNF Str} (e : c.cnf = pure F) : c.Solutions (· ∈ F.vars) (Holds F.vars F.clauses) := by
  cases c with
  | php p h f o => exact C67_pigeonhole e
  | bphp p h bits => exact C67_binary_pigeonhole hc e
  | op n t s p k =>
    have e : graphOrdering (Graph.complete n) t s p k = pure F := e
    obtain ⟨k1, k2⟩ := C67_graph_ordering (complete_wf n) e
    have hm : ∀ v, v ∈ (Graph.complete n).verts ↔ v < n := fun v => by simp [Graph.complete]
    have hd : ∀ v, v ∈ (if p = true then (Graph.complete n).verts.dropLast else (Graph.complete n).verts) ↔ v < n ∧ (p = true → v + 1 ≠ n) := by
      intro v
      cases p with
      | false => simp [hm]
      | true =>
        simp only [if_true, true_imp_iff, Graph.complete]
        cases n with
        | zero => simp
        | succ m => rw [List.range_succ, List.dropLast_concat, List.mem_range]; omega
    refine ⟨fun x => (k1 x).trans ?_, fun α => (k2 α).trans ?_⟩
    · simp only [hm]
      exact ⟨fun ⟨u, hu, v, hv, h⟩ => ⟨u, v, hu, hv, h⟩, fun ⟨u, v, hu, hv, h⟩ => ⟨u, hu, v, hv, h⟩⟩
    · simp only [hm, hd, complete_hasEdge]
      refine and_congr_left fun _ => ?_
      refine forall_congr' fun v => ⟨fun h h1 h2 => ?_, fun h h1 => ?_⟩
      · obtain ⟨u, hu, h3, h4⟩ := h ⟨h1, h2⟩
        exact ⟨u, hu, fun e => h3.2.2 e.symm, h4⟩
      · obtain ⟨u, hu, h3, h4⟩ := h h1.1 h1.2
        exact ⟨u, hu, ⟨h1.1, hu, fun e => h3 e.symm⟩, h4⟩
  | gop a t s p k =>
    obtain ⟨G, vs, _, hG, hw, e⟩ := got_graph hc e
    exact ⟨_, hG, C67_graph_ordering hw e⟩
  | parity n =>
    obtain ⟨k1, k2⟩ := C67_counting (n := n) (p := 2) e
    have hp : ∀ t : List Nat, (t.Pairwise (· < ·) ∧ (∀ e ∈ t, e < n) ∧ t.length = 2) ↔ ∃ i j, i < j ∧ j < n ∧ t = [i, j] := by
      intro t
      constructor
      · rintro ⟨h1, h2, h3⟩
        obtain ⟨i, j, rfl⟩ := List.length_eq_two.1 h3
        simp only [List.pairwise_cons, List.mem_singleton, forall_eq] at h1
        exact ⟨i, j, h1.1, h2 j (by simp), rfl⟩
      · rintro ⟨i, j, h1, h2, rfl⟩
        refine ⟨by simpa using h1, ?_, rfl⟩
        intro e he
        simp only [List.mem_cons, List.not_mem_nil, or_false] at he
        omega
    refine ⟨fun x => (k1 x).trans ?_, fun α => (k2 α).trans (forall_congr' fun e => imp_congr_right fun he => ?_)⟩
    · constructor
      · rintro ⟨t, h1, h2, h3, h4, rfl⟩
        obtain ⟨i, j, h5, h6, rfl⟩ := (hp t).1 ⟨h1, h2, h3⟩
        exact ⟨i, j, h5, h6, rfl⟩
      · rintro ⟨i, j, h5, h6, rfl⟩
        obtain ⟨h1, h2, h3⟩ := (hp _).2 ⟨i, j, h5, h6, rfl⟩
        exact ⟨_, h1, h2, h3, by simp, rfl⟩
    · simp only [hp]
      have key : ∀ t : List Nat, (∃ i j, i < j ∧ j < n ∧ t = [i, j]) ∧ e ∈ t ↔ ∃ u < n, u ≠ e ∧ t = [min u e, max u e] := by
        intro t
        constructor
        · rintro ⟨⟨i, j, h1, h2, rfl⟩, h3⟩
          simp only [List.mem_cons, List.not_mem_nil, or_false] at h3
          rcases h3 with rfl | rfl
          · exact ⟨j, h2, by omega, by rw [min_eq_right h1.le, max_eq_left h1.le]⟩
          · exact ⟨i, by omega, by omega, by rw [min_eq_left h1.le, max_eq_right h1.le]⟩
        · rintro ⟨u, h1, h2, rfl⟩
          exact ⟨⟨_, _, by omega, by omega, rfl⟩, by simp only [List.mem_cons, List.not_mem_nil, or_false]; omega⟩
      constructor
      · rintro ⟨t, h1, h2, h3, h4⟩
        obtain ⟨u, hu, hue, rfl⟩ := (key t).1 ⟨h1, h2⟩
        refine ⟨u, hu, hue, h3, fun w hw hwe h5 => ?_⟩
        have h6 := (key [min w e, max w e]).2 ⟨w, hw, hwe, rfl⟩
        have h7 := h4 _ h6.1 h6.2 h5
        simp only [List.cons.injEq, and_true] at h7
        omega
      · rintro ⟨u, hu, hue, h3, h4⟩
        have h6 := (key [min u e, max u e]).2 ⟨u, hu, hue, rfl⟩
        refine ⟨_, h6.1, h6.2, h3, fun s hs1 hs2 hs3 => ?_⟩
        obtain ⟨w, hw, hwe, rfl⟩ := (key s).1 ⟨hs1, hs2⟩
        rw [h4 w hw hwe hs3]
  | matching a =>
    obtain ⟨G, vs, _, hG, hw, e⟩ := got_graph hc e
    exact ⟨_, hG, C67_perfect_matching hw e⟩
  | count m p => exact C67_counting e
  | tseitin ch coins a =>
    obtain ⟨G, vs, hp, hG, hw, e⟩ := got_graph hc e
    refine ⟨_, hG, ?_⟩
    have hl : G.nodes.length = G.toGraph.verts.length := by rw [hp.toNat_verts, hp.nodes.length_eq, List.length_map]
    have e : Cnfgen.tseitin G.toGraph (chargeVec ch coins G.nodes.length) = pure F := e
    rw [hl] at e
    rcases chargeVec_ok ch coins G.toGraph.verts.length with ⟨h0, h1⟩ | ⟨h0, cs, h1, h2⟩
    · have hv : G.toGraph.verts = [] := List.length_eq_zero_iff.1 h0
      have e' : Cnfgen.tseitin G.toGraph (some []) = pure F := by
        rw [← e, h1]
        unfold Cnfgen.tseitin
        rw [hv]; rfl
      obtain ⟨k1, k2⟩ := C67_tseitin hw e'
      exact ⟨k1, [], ⟨by rw [h0]; rfl, fun h => absurd h0 h⟩, k2⟩
    · rw [h1] at e
      obtain ⟨k1, k2⟩ := C67_tseitin hw e
      exact ⟨k1, cs, h2, k2⟩
  | kcolor k a =>
    obtain ⟨G, vs, _, hG, hw, e⟩ := got_graph hc e
    obtain ⟨k1, k2⟩ := C67_coloring hw ((nodup_oneTo_sorted k).imp fun h => Nat.ne_of_lt h) e
    refine ⟨_, hG, fun x => (k1 x).trans (by simp only [mem_oneTo']), fun α => (k2 α).trans ?_⟩
    simp only [mem_oneTo', true_imp_iff]
    constructor
    · rintro ⟨h1, h2, h3⟩
      choose! f hf using h1
      refine ⟨f, fun v hv => ⟨(hf v hv).1, fun c c1 c2 => ⟨fun h => h2 v hv c ⟨c1, c2⟩ _ (hf v hv).1 h (hf v hv).2, fun h => h ▸ (hf v hv).2⟩⟩, ?_⟩
      refine (edges_iff_hasEdge (Q := fun u v => f u ≠ f v) (fun u v h => h.symm)).1 ?_
      intro d hd he
      have hends := hw.ends d hd
      exact h3 d hd _ (hf _ hends.1).1 ⟨(hf _ hends.1).2, he ▸ (hf _ hends.2.1).2⟩
    · rintro ⟨f, h1, h2⟩
      have h2 := (edges_iff_hasEdge (g := G.toGraph) (Q := fun u v => f u ≠ f v) (fun u v h => h.symm)).2 h2
      refine ⟨fun v hv => ⟨f v, (h1 v hv).1, ((h1 v hv).2 _ (h1 v hv).1.1 (h1 v hv).1.2).2 rfl⟩, fun v hv c hc d hd e1 e2 => ?_, fun d hd c hc ⟨e1, e2⟩ => ?_⟩
      · rw [((h1 v hv).2 c hc.1 hc.2).1 e1, ((h1 v hv).2 d hd.1 hd.2).1 e2]
      · have hends := hw.ends d hd
        exact h2 d hd (by rw [← ((h1 _ hends.1).2 c hc.1 hc.2).1 e1, ← ((h1 _ hends.2.1).2 c hc.1 hc.2).1 e2])
  | ec a =>
    obtain ⟨G, vs, _, hG, hw, e⟩ := got_graph hc e
    exact ⟨_, hG, C67_even_coloring hw e⟩
  | ram s k n => exact C67_ramsey e
  | ptn isqrt n => exact C67_pythagorean hc e
  | cliquecoloring n k c => exact C67_clique_coloring e
  | domset alt d a =>
    obtain ⟨G, vs, _, hG, hw, e⟩ := got_graph hc e
    cases alt with
    | false =>
      obtain ⟨k1, k2⟩ := C67_dominating_set hw e
      exact ⟨_, hG, k1, k2⟩
    | true =>
      obtain ⟨k1, k2⟩ := C67_dominating_set_alternative hw e
      exact ⟨_, hG, k1, k2⟩
  | giso a1 a2 =>
    obtain ⟨G, vs, _, hG, hw, e⟩ := got_graph hc.1 e
    obtain ⟨G2, vs2, _, hG2, hw2, e⟩ := got_graph hc.2 e
    exact ⟨_, _, hG, hG2, C67_isomorphism hw hw2 e⟩
  | gauto a =>
    obtain ⟨G, vs, _, hG, hw, e⟩ := got_graph hc e
    exact ⟨_, hG, C67_automorphism hw e⟩
  | subgraph a aT =>
    obtain ⟨G, vs, _, hG, hw, e⟩ := got_graph hc.1 e
    obtain ⟨T, vs2, _, hT, hw2, e⟩ := got_graph hc.2 e
    have hm : maxOrder [T.toGraph] = T.toGraph.verts.length := by simp [maxOrder]
    refine ⟨_, _, hG, hT, fun x => (C67_subgraph_vars (by simp) e x).trans ?_, fun α => (C67_subgraph (by simp) e α).trans ?_⟩
    · rw [hm]; simp
    · rw [hm]
      refine exists_congr fun f => and_congr_right fun _ => and_congr_right fun _ => ?_
      simp [SwitchedOn]
  | kclique k a =>
    obtain ⟨G, vs, _, hG, hw, e⟩ := got_graph hc e
    have e : subgraph G.toGraph [Graph.complete k] true = pure F := e
    have hk : (Graph.complete k).verts.length = k := by simp [Graph.complete]
    have hm : maxOrder [Graph.complete k] = k := by simp [maxOrder, hk]
    refine ⟨_, hG, fun x => (C67_subgraph_vars (by simp) e x).trans ?_, fun α => (C67_subgraph (by simp) e α).trans ?_⟩
    · rw [hm]; simp
    · rw [hm]
      refine exists_congr fun f => and_congr_right fun _ => ?_
      constructor
      · rintro ⟨h1, _, h2⟩
        refine ⟨h1.1, fun i j hij hj => ⟨(h1.2 i j hij hj).2 rfl, ?_⟩⟩
        exact (h2 0 (by simp) (.inl rfl) i j hij (by simpa [hk] using hj)).1 (complete_posEdge hij hj)
      · rintro ⟨h1, h2⟩
        refine ⟨⟨h1, fun i j hij hj => ⟨((h2 i j hij hj).1).ne, fun _ => (h2 i j hij hj).1⟩⟩, fun h => by simp at h, fun i hi _ => ?_⟩
        have : i = 0 := by simpa using hi
        subst this
        intro i j hij hj
        have hj : j < k := by simpa [hk] using hj
        exact ⟨fun _ => (h2 i j hij hj).2, fun _ => complete_posEdge hij hj⟩
  | kcliquebin k bits a =>
    obtain ⟨G, vs, h1, hG, hw, e⟩ := got_graph hc.1 e
    have hpm : (G.nodes.map Int.toNat).Perm G.toGraph.verts := by
      rw [h1.toNat_verts]
      have := h1.nodes.map Int.toNat
      rwa [List.map_map, show Int.toNat ∘ Int.ofNat = id from rfl, List.map_id] at this
    exact ⟨_, hG, _, hpm, C67_binary_clique (hpm.nodup_iff.2 (hw.sorted.imp fun h => Nat.ne_of_lt h)) (by rw [hpm.length_eq]; exact hc.2 _ hG) e⟩
  | ramlb k s a =>
    obtain ⟨G, vs, _, hG, hw, e⟩ := got_graph hc e
    have e : subgraph G.toGraph [Graph.complete k, Graph.empty s] true = pure F := e
    have hk : (Graph.complete k).verts.length = k := by simp [Graph.complete]
    have hs : (Graph.empty s).verts.length = s := by simp [Graph.empty]
    have hm : maxOrder [Graph.complete k, Graph.empty s] = max k s := by simp [maxOrder, hk, hs]
    refine ⟨_, hG, fun x => (C67_subgraph_vars (by simp) e x).trans ?_, fun α => (C67_subgraph (by simp) e α).trans ?_⟩
    · rw [hm]; simp
    · rw [hm]
      refine exists_congr fun f => and_congr_right fun _ => ?_
      constructor
      · rintro ⟨h1, _, h2⟩
        refine ⟨h1.1, fun i j hij hj => (h1.2 i j hij hj).2 rfl, fun hc i j hij hj => ?_, fun hc i j hij hj => ?_⟩
        · exact (h2 0 (by simp) (.inr (.inl ⟨rfl, by simp [hc]⟩)) i j hij (by simpa [hk] using hj)).1 (complete_posEdge hij hj)
        · have h3 := h2 1 (by simp) (.inr (.inl ⟨rfl, by simp [hc]⟩)) i j hij (by simpa [hs] using hj)
          have h4 := empty_posEdge s i j
          by_contra hne
          have h5 : G.toGraph.posEdge (f i) (f j) = true := eq_true_of_ne_false hne
          have h6 := h3.2 h5
          simp only [List.getElem_cons_succ, List.getElem_cons_zero] at h6
          rw [h4] at h6; simp at h6
      · rintro ⟨h1, h2, h3, h4⟩
        refine ⟨⟨h1, fun i j hij hj => ⟨(h2 i j hij hj).ne, fun _ => h2 i j hij hj⟩⟩, fun h => by simp at h, fun i hi hsw => ?_⟩
        have hi : i = 0 ∨ i = 1 := by simp at hi; omega
        rcases hsw with h | ⟨_, h⟩ | ⟨h, _⟩
        · simp at h
        · rcases hi with rfl | rfl
          · have hc := h.1 rfl
            intro i j hij hj
            have hj : j < k := by simpa [hk] using hj
            exact ⟨fun _ => h3 hc i j hij hj, fun _ => complete_posEdge hij hj⟩
          · have hc : α ['c'] = true := by
              cases hcc : α ['c'] with
              | true => rfl
              | false => exact absurd (h.2 hcc) (by simp)
            intro i j hij hj
            have hj : j < s := by simpa [hs] using hj
            have h5 : G.toGraph.posEdge (f i) (f j) = false := h4 hc i j hij hj
            rw [h5]
            simp [empty_posEdge]
        · simp at h
  | randkcnf rs k n m =>
    obtain ⟨q1, q2⟩ := C68_random_kcnf rs []
    have e : randomKCNF rs k n m [] = pure F := e
    rcases Nat.lt_or_ge n k with h | h
    · rw [q1 k n m (by omega)] at e; simp at e
    obtain ⟨q3, q4⟩ := q2 k n m h (hc h)
    rcases Nat.lt_or_ge {c | Candidate k n [] c}.ncard m with h' | h'
    · rw [q3 h'] at e; simp at e
    · obtain ⟨F', cs, e', hv, _, h1, h2, h3, h4, _⟩ := q4 h'
      obtain rfl := (M.pure_inj _ _).1 (e.symm.trans e')
      refine ⟨fun x => ?_, cs, h1, h2, h3, h4⟩
      show x ∈ F.vars ↔ _
      rw [hv, List.mem_map]
      simp only [mem_oneTo']
      constructor
      · rintro ⟨i, hi, rfl⟩; exact ⟨i, hi.1, hi.2, rfl⟩
      · rintro ⟨i, h1, h2, rfl⟩; exact ⟨i, ⟨h1, h2⟩, rfl⟩
  | or p n =>
    obtain ⟨⟨F', e', _, h⟩, _⟩ := C69_simple p n
    obtain rfl := (M.pure_inj _ _).1 (e.symm.trans e')
    refine ⟨fun x => (ofClauses_vars e' x).trans ?_, h⟩
    simp [eq_comm, or_comm]
  | and p n =>
    obtain ⟨_, ⟨F', e', _, h⟩, _⟩ := C69_simple p n
    obtain rfl := (M.pure_inj _ _).1 (e.symm.trans e')
    refine ⟨fun x => (ofClauses_vars e' x).trans ?_, h⟩
    simp [or_and_right, exists_or, eq_comm]
  | empty =>
    obtain ⟨_, _, ⟨F', e', hv, _, h⟩, _⟩ := C69_simple 0 0
    obtain rfl := (M.pure_inj _ _).1 (e.symm.trans e')
    exact ⟨fun x => by rw [hv]; simp, h⟩
  | emptyclause =>
    obtain ⟨_, _, _, F', e', hv, _, h⟩ := C69_simple 0 0
    obtain rfl := (M.pure_inj _ _).1 (e.symm.trans e')
    exact ⟨fun x => by rw [hv]; simp, h⟩
  | peb d => exact C67_pebbling (dag_ok d).1 e
  | stone s d => exact C67_stone (nm := id) (dag_ok d).1 e

/-- **C87.** `cnfgen <sub-command>` without transformations: either a message is printed, for the reasons `Cmd.Answers` gives, or a DIMACS file, and there is a list
`names` such that, number `i` of the file standing for the `i`-th name, the names and the assignments under which every clause of the file is true are those
`Cmd.Solutions` describes.  Only `--addedges` can end in another error, a `RuntimeError`. -/
theorem C87_cnfgen {c : Cmd} (hc : c.Legal) (parse : List Str → Option (GenArgs Str)) (parseT : List Str → Option (Option Trans))
    (gen : List Str) (hg : "-T".toList ∉ gen) (verbose : Bool) (hdr : CNF Str → Str) (hp : parse gen = some (c.args verbose hdr)) :
    (cnfgen id parse parseT (cmdLine gen []) = pure none ∧ c.Answers none) ∨
    (∃ out cs names, cnfgen id parse parseT (cmdLine gen []) = pure (some out) ∧ Prints out names.length cs ∧ Cnfgen.Proper names cs ∧
      c.Solutions (· ∈ names) (Holds names cs)) ∨
    (cnfgen id parse parseT (cmdLine gen []) = raise .runtimeError ∧ c.AddsEdges) := by
  have heq := cnfgen_eq id parse parseT gen [] hg (by simp) hp (Ts := []) .nil
  rcases C84_command hc with (⟨e, hq⟩ | ⟨F, P, e, hF, hq, hs⟩) | ⟨e, hq⟩
  · refine .inl ⟨?_, hq⟩
    rw [heq, show (c.args verbose hdr).build = raise .valueError by show (c.cnf >>= _) = _; rw [e, M.raise_bind]]
    rfl
  · refine .inr (.inl ?_)
    have hb : reported (c.args verbose hdr).build = pure (some (hdr F, F)) := by
      have : (c.args verbose hdr).build = pure (hdr F, F) := by show (c.cnf >>= _) = _; rw [e, M.pure_bind]
      rw [this]; rfl
    rw [hb, M.pure_bind] at heq
    simp only [Doc.applyAll] at heq
    rw [M.pure_bind] at heq
    simp only [] at heq
    obtain ⟨t, ht', hPr⟩ := doc_prints (c.args verbose hdr).verbose (some ("COMMAND LINE: cnfgen ".toList ++ joinWith [' '] ((cmdLine gen []).drop 1) ++ ['\n']))
      (⟨hdr F, .inl F⟩ : Doc Str) hF
    rw [ht', M.pure_bind] at heq
    have hPr : Prints (t ++ ['\n']) F.vars.length F.clauses := hPr
    exact ⟨_, F.clauses, F.vars, heq, hPr, hF, C87_command hc e⟩
  · refine .inr (.inr ⟨?_, hq⟩)
    rw [heq, show (c.args verbose hdr).build = raise .runtimeError by show (c.cnf >>= _) = _; rw [e, M.raise_bind]]
    rfl

/-- `cnfgen -q op 2 --total`: `x_{0,1}` and `x_{1,0}` are the variables, and nothing satisfies the formula: each element would be before the other. -/
example (parseT : List Str → Option (Option Trans)) :
    cnfgen id (fun _ => some ((Cmd.op 2 true false false 0).args false fun _ => [])) parseT (cmdLine ["op".toList] []) =
      pure (some "p cnf 2 4\n2 0\n1 0\n-1 -2 0\n1 2 0\n".toList) ∧ (Cmd.op 2 true false false 0).Legal :=
  ⟨by rfl, trivial⟩

/-- `cnfgen -q ramlb 2 2 --complete 2` asks for two vertices that are neighbors (`c` false) or are not (`c` true): in every solution `c` is false. -/
example (parseT : List Str → Option (Option Trans)) :
    cnfgen id (fun _ => some ((Cmd.ramlb 2 2 { source := .complete 2 }).args false fun _ => [])) parseT (cmdLine ["ramlb".toList] []) =
      pure (some "p cnf 5 8\n2 3 0\n4 5 0\n-2 -4 0\n-3 -5 0\n-2 -3 0\n-4 -5 0\n-3 -4 0\n-1 -2 -5 0\n".toList) ∧
    ∀ F, (Cmd.ramlb 2 2 { source := .complete 2 }).cnf = pure F → ∀ α, Holds F.vars F.clauses α → α ['c'] = false := by
  refine ⟨by rfl, fun F e α h => ?_⟩
  obtain ⟨g, ⟨vs, E, h', hd, _, _, _, hv, hE, hg, _⟩, _, hS⟩ := C87_command (c := .ramlb 2 2 { source := .complete 2 })
    (⟨trivial, fun _ h => by simp at h, fun _ h => by simp at h⟩) e
  obtain ⟨f, _, h1, h2, _, h4⟩ := (hS α).1 h
  by_contra hne
  have hc : α ['c'] = true := by simpa using hne
  have h5 := h4 hc 0 1 (by omega) (by omega)
  have h6 := h2 0 1 (by omega) (by omega)
  have h7 := h1 1 (by omega)
  rw [hv.trans hd.1] at h5 h7
  rw [List.length_range] at h7
  rw [show f 0 = 0 by omega, show f 1 = 1 by omega] at h5
  have := (hE 0 1).2 (.inl ((hd.2 0 1).2 (by simp)))
  rw [← hg rfl] at this
  exact absurd (this.symm.trans h5) (by simp)

end NDP.Cnfgen
