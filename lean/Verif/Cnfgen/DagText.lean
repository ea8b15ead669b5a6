import Verif.Cnfgen.CommandsBip
import Verif.Cnfgen.Clauses3
/-
  The sub-commands of `cnfgen` on a directed graph that is given on the standard input: `peb`, `stone` and `stonesparse` with `-gf kthlist` (C99).  The options are
  those `argparse` has parsed.
-/
namespace NDP.Cnfgen
open NDP

/-! ### Model -/

/-- `cmdline.py` 313-324 (`DirectedAcyclicGraphHelper.obtain_graph`) without `--tree` and `--pyramid`, with `-gf kthlist`; the graph is on the standard input.  The
`exit(-1)` after a `ValueError` is a `ValueError` here: nothing is printed in both cases. -/
def dagOfText (text : Str) : M (Digraph Int) := do
  let G ← readKth .dag text
  pure ⟨G.nodes, G.edges⟩

/-- `families/pebbling.py` 356-367 (`peb`): the variables are the vertices, which are integers. -/
def pebText (text : Str) : M (CNF Int) := do pebbling (← dagOfText text)

/-- The other two sub-commands. -/
inductive DagCmd where
  | stone (s : Int) (text : Str)
  | stonesparse (text : Str) (a : BipArgs)

/-- `families/pebbling.py` 388-399, 419-432: first the directed graph, then the bipartite one. -/
def DagCmd.cnf : DagCmd → M (CNF Str)
  | .stone s text => do Cnfgen.stone intStr (← dagOfText text) s
  | .stonesparse text a => do
    let D ← dagOfText text
    let B ← obtainBip a
    sparseStone intStr D B.toBip

def DagCmd.text : DagCmd → Str
  | .stone _ t => t
  | .stonesparse t _ => t

/-- The random choices of the bipartite graph are possible. -/
def DagCmd.Legal : DagCmd → Prop
  | .stone _ _ => True
  | .stonesparse _ a => a.Legal

def DagCmd.args (c : DagCmd) (verbose : Bool) (hdr : CNF Str → Str) : GenArgs Str :=
  ⟨verbose, .text, do let F ← c.cnf; pure (hdr F, F)⟩

def pebArgs (text : Str) (verbose : Bool) (hdr : CNF Int → Str) : GenArgs Int :=
  ⟨verbose, .text, do let F ← pebText text; pure (hdr F, F)⟩

/-! ### Specification -/

/-- The text lists the predecessors of `n` vertices, and there is no cycle. -/
def DagListed (text : Str) (n : Nat) : Prop := ∃ adj, KthText text n adj ∧ NoCycle (Listed adj)

/-- What the sub-commands are documented to do: the formulas cannot be satisfied, unless there is no vertex at all. -/
def DagCmd.Answers : DagCmd → Option Prop → Prop
  | .stone s text, r => (((¬ ∃ n, DagListed text n) ∨ s < 0) ∧ r = none) ∨ ∃ n, DagListed text n ∧ 0 ≤ s ∧ r = some (n = 0)
  | .stonesparse text a, r => ((¬ ∃ n, DagListed text n) ∧ r = none) ∨
      ∃ n, DagListed text n ∧ onBip a (fun g r => (g.left.length ≠ n ∧ r = none) ∨ (g.left.length = n ∧ r = some (n = 0))) r

/-- Only these options of the bipartite graph can end in another error. -/
def DagCmd.Fails : DagCmd → PyErr → Prop
  | .stone _ _, _ => False
  | .stonesparse _ a, e => (e = .runtimeError ∧ a.addedges ≠ none) ∨ (e = .recursionError ∧ a.source.IsRegular)

/-! ### Proofs -/

/-- The graph read. -/
theorem dagOfText_cases (text : Str) :
    ((¬ ∃ n, DagListed text n) ∧ dagOfText text = raise .valueError) ∨
    ∃ n adj g, KthText text n adj ∧ NoCycle (Listed adj) ∧ dagOfText text = pure g ∧ g.Wf ∧ g.Acyclic ∧ g.verts = intsTo n ∧ (∀ a b, (a, b) ∈ g.edges ↔ Listed adj a b) ∧
      ∀ m, DagListed text m → m = n := by
  unfold dagOfText
  by_cases h : ∃ n adj, KthText text n adj
  · obtain ⟨n, adj, h⟩ := h
    have hun : ∀ m adj', KthText text m adj' → m = n := by
      rintro m adj' ⟨l, ls, e, _, e2, _⟩
      obtain ⟨l', ls', e', _, e2', _⟩ := h
      rw [e] at e'
      obtain ⟨rfl, _⟩ := List.cons.inj e'
      rw [e2] at e2'
      simpa using e2'
    by_cases hc : NoCycle (Listed adj)
    · obtain ⟨G, e, hd, hv, hw, hE⟩ := (C71_kth_dag h).1 hc
      have hE : ∀ a b, (a, b) ∈ G.edges ↔ Listed adj a b := by
        intro a b
        rw [← hE, hasEdge_iff, hd]
        simp
      refine .inr ⟨n, adj, ⟨G.nodes, G.edges⟩, h, hc, by rw [e, M.pure_bind], ⟨hw.nodup, hw.ends⟩, ?_, hv, hE, fun m ⟨adj', h', _⟩ => hun m adj' h'⟩
      intro v hcy
      exact hc v (Relation.TransGen.mono (fun a b hab => (hE a b).1 hab) v v hcy)
    · refine .inl ⟨?_, by rw [(C71_kth_dag h).2 hc, M.raise_bind]⟩
      rintro ⟨m, adj', h', hc'⟩
      obtain rfl := hun m adj' h'
      obtain ⟨G, e, _⟩ := (C71_kth_dag h').1 hc'
      rw [(C71_kth_dag h).2 hc] at e
      simp at e
  · exact .inl ⟨fun ⟨n, adj, h', _⟩ => h ⟨n, adj, h'⟩, by rw [C71_kth_reject .dag h, M.raise_bind]⟩

theorem intsTo_nil (n : Nat) : intsTo n = [] ↔ n = 0 := by
  rw [← List.length_eq_zero_iff, intsTo, List.length_map, length_oneTo]

theorem intsTo_length (n : Nat) : (intsTo n).length = n := by rw [intsTo, List.length_map, length_oneTo]

theorem stone_proper {V : Type} [DecidableEq V] {nm : V → Str} {g : Digraph V} {s : Int} {F : CNF Str} (h : stone nm g s = pure F) : Cnfgen.Proper F.vars F.clauses := by
  unfold stone at h
  split at h
  · cases h
  split at h
  · cases h
  · exact (ofParts_coh h).proper

theorem sparseStone_proper {V : Type} [DecidableEq V] {nm : V → Str} {g : Digraph V} {b : BiGraph} {F : CNF Str} (h : sparseStone nm g b = pure F) :
    Cnfgen.Proper F.vars F.clauses := by
  have hall : ∀ {s : Bool} {cs ds : List (List (Lit Str))} {G H : CNF Str}, G.Coh ds → G.addAll s cs = pure H → H.Coh (ds ++ cs) := by
    intro s cs ds G H hG h
    have := foldlM_coh (g := fun c => [c]) (fun h e => addClause_coh h e) _ hG h
    simpa using this
  unfold sparseStone at h
  split at h
  · cases h
  split at h
  · cases h
  · obtain ⟨G, hG, hF⟩ := M.bind_eq_pure.1 h
    exact (hall (ofParts_coh hG) hF).proper

theorem pebbling_proper {V : Type} [DecidableEq V] {g : Digraph V} {F : CNF V} (h : pebbling g = pure F) : Cnfgen.Proper F.vars F.clauses := by
  unfold pebbling at h
  split at h
  · exact (ofParts_coh h).proper
  · cases h

/-- **C99, the sub-commands.** `stone` and `stonesparse` over a graph on the standard input, whatever the text and the random choices: refused or a proper formula as
documented; only `--addedges` and `--bregular` of the bipartite graph can make them fail otherwise. -/
theorem C99_command {c : DagCmd} (hc : c.Legal) : Does c.cnf c.Answers ∨ ∃ e, c.Fails e ∧ c.cnf = raise e := by
  cases c with
  | stone s text =>
    left
    rcases dagOfText_cases text with ⟨h1, h2⟩ | ⟨n, adj, g, h, hn, e, hw, ha, hv, _, _⟩
    · exact .inl ⟨by simp only [DagCmd.cnf]; rw [h2, M.raise_bind], .inl ⟨.inl h1, rfl⟩⟩
    · have hs := C64_stone intStr g hw s
      have hcnf : (DagCmd.stone s text).cnf = Cnfgen.stone intStr g s := by simp only [DagCmd.cnf]; rw [e, M.pure_bind]
      rw [hcnf]
      by_cases h0 : s < 0
      · exact .inl ⟨hs.1 (.inr h0), .inl ⟨.inr h0, rfl⟩⟩
      · obtain ⟨F, h1, h2⟩ := hs.2 ha (by omega)
        exact .inr ⟨F, n = 0, h1, stone_proper h1, .inr ⟨n, ⟨adj, h, hn⟩, by omega, rfl⟩, h2.trans (by rw [hv]; exact intsTo_nil n)⟩
  | stonesparse text a =>
    rcases dagOfText_cases text with ⟨h1, h2⟩ | ⟨n, adj, g, h, hn, e, hw, ha, hv, _, _⟩
    · exact .inl (.inl ⟨by simp only [DagCmd.cnf]; rw [h2, M.raise_bind], .inl ⟨h1, rfl⟩⟩)
    · have hcnf : (DagCmd.stonesparse text a).cnf = obtainBip a >>= fun B => sparseStone intStr g B.toBip := by simp only [DagCmd.cnf]; rw [e, M.pure_bind]
      rw [hcnf]
      have hd := does_bip hc (f := fun B => sparseStone intStr g B.toBip)
        (Q := fun g r => (g.left.length ≠ n ∧ r = none) ∨ (g.left.length = n ∧ r = some (n = 0))) (fun B _ => by
          have hs := C64_sparse_stone intStr (fun _ _ h => intStr_injective h) g hw B.toBip
          have hlen : g.verts.length = n := by rw [hv, intsTo_length]
          by_cases hl : B.toBip.left.length = n
          · obtain ⟨F, h1, h2⟩ := hs.2 ha (hl.trans hlen.symm)
            exact .inr ⟨F, n = 0, h1, sparseStone_proper h1, .inr ⟨hl, rfl⟩, h2.trans (by rw [hv]; exact intsTo_nil n)⟩
          · exact .inl ⟨hs.1 (.inr (by rw [hlen]; exact hl)), .inl ⟨hl, rfl⟩⟩)
      rcases hd with hd | ⟨hd, h3⟩ | ⟨hd, h3⟩
      · left
        rcases hd with ⟨h3, h4⟩ | ⟨F, P, h3, h4, h5, h6⟩
        · exact .inl ⟨h3, .inr ⟨n, ⟨adj, h, hn⟩, h4⟩⟩
        · exact .inr ⟨F, P, h3, h4, .inr ⟨n, ⟨adj, h, hn⟩, h5⟩, h6⟩
      · exact .inr ⟨_, .inl ⟨rfl, h3⟩, hd⟩
      · exact .inr ⟨_, .inr ⟨rfl, h3⟩, hd⟩

/-- **C99.** `cnfgen stone|stonesparse … -gf kthlist < text -T t₁ …`: a message, or a DIMACS file with a formula that can be satisfied exactly if the text lists no
vertex at all; or one of the two errors of the bipartite graph. -/
theorem C99_cnfgen {c : DagCmd} (hc : c.Legal) (parse : List Str → Option (GenArgs Str)) (parseT : List Str → Option (Option Trans))
    (gen : List Str) (ts : List (List Str)) (hg : "-T".toList ∉ gen) (ht : ∀ t ∈ ts, "-T".toList ∉ t) (verbose : Bool) (hdr : CNF Str → Str)
    (hp : parse gen = some (c.args verbose hdr)) {Ts : List Trans} (hT : List.Forall₂ (fun t T => parseT t = some (some T)) ts Ts)
    (hch : ∀ T ∈ Ts, T.Chance ∧ T.Faithful ∧ ¬ T.IsComp) :
    (cnfgen id parse parseT (cmdLine gen ts) = pure none ∧ c.Answers none) ∨
    (∃ out n cs P, cnfgen id parse parseT (cmdLine gen ts) = pure (some out) ∧ Prints out n cs ∧ c.Answers (some P) ∧ (Spec.Satisfiable cs ↔ P)) ∨
    ∃ e, c.Fails e ∧ cnfgen id parse parseT (cmdLine gen ts) = raise e := by
  obtain ⟨h1, h2⟩ := C78_cnfgen (sh := id) Function.injective_id parse parseT gen ts hg ht hp hT (fun T h => (hch T h).1) rfl
  rcases C99_command hc with (⟨e, hq⟩ | ⟨F, P, e, hF, hq, hs⟩) | ⟨e, hq, he⟩
  · refine .inl ⟨?_, hq⟩
    have := h2 .valueError (by show (c.cnf >>= _) = _; rw [e, M.raise_bind])
    rw [this, if_pos (.inl rfl)]
  · rcases h1 (hdr F) F (by show (c.cnf >>= _) = _; rw [e, M.pure_bind]) hF with ⟨_, T, hT, hco⟩ | ⟨out, n, cs, k1, k2, _, k4⟩
    · exact absurd hco (hch T hT).2.2
    · exact .inr (.inl ⟨out, n, cs, P, k1, k2, hq, (k4 fun T hT => (hch T hT).2.1).trans hs⟩)
  · refine .inr (.inr ⟨e, hq, ?_⟩)
    have := h2 e (by show (c.cnf >>= _) = _; rw [he, M.raise_bind])
    rw [this, if_neg]
    cases c with
    | stone => exact hq.elim
    | stonesparse => rcases hq with ⟨rfl, _⟩ | ⟨rfl, _⟩ <;> simp

/-- **C99, `peb`.** `cnfgen peb -gf kthlist < text -T t₁ …`: a message exactly if the text is not a list of predecessors without a cycle; otherwise a DIMACS file with a
formula that can be satisfied exactly if there is no vertex. -/
theorem C99_peb (text : Str) (parse : List Str → Option (GenArgs Int)) (parseT : List Str → Option (Option Trans))
    (gen : List Str) (ts : List (List Str)) (hg : "-T".toList ∉ gen) (ht : ∀ t ∈ ts, "-T".toList ∉ t) (verbose : Bool) (hdr : CNF Int → Str)
    (hp : parse gen = some (pebArgs text verbose hdr)) {Ts : List Trans} (hT : List.Forall₂ (fun t T => parseT t = some (some T)) ts Ts)
    (hch : ∀ T ∈ Ts, T.Chance ∧ T.Faithful ∧ ¬ T.IsComp) :
    ((¬ ∃ n, DagListed text n) → cnfgen intStr parse parseT (cmdLine gen ts) = pure none) ∧
    ∀ n, DagListed text n → ∃ out k cs, cnfgen intStr parse parseT (cmdLine gen ts) = pure (some out) ∧ Prints out k cs ∧ (Spec.Satisfiable cs ↔ n = 0) := by
  obtain ⟨h1, h2⟩ := C78_cnfgen (sh := intStr) (fun _ _ h => intStr_injective h) parse parseT gen ts hg ht hp hT (fun T h => (hch T h).1) rfl
  rcases dagOfText_cases text with ⟨k1, k2⟩ | ⟨n, adj, g, h, hn, e, hw, ha, hv, _, hu⟩
  · refine ⟨fun _ => ?_, fun n h => absurd ⟨n, h⟩ k1⟩
    have := h2 .valueError (by show (pebText text >>= _) = _; unfold pebText; rw [k2, M.raise_bind, M.raise_bind])
    rw [this, if_pos (.inl rfl)]
  · refine ⟨fun h' => absurd ⟨n, adj, h, hn⟩ h', fun m hm => ?_⟩
    obtain rfl := hu m hm
    obtain ⟨F, hF, _, hs⟩ := (C64_pebbling g hw).2 ha
    have hb : pebText text = pure F := by unfold pebText; rw [e, M.pure_bind, hF]
    rcases h1 (hdr F) F (by show (pebText text >>= _) = _; rw [hb, M.pure_bind]) (pebbling_proper hF) with ⟨_, T, hT, hco⟩ | ⟨out, k, cs, j1, j2, _, j4⟩
    · exact absurd hco (hch T hT).2.2
    · exact ⟨out, k, cs, j1, j2, (j4 fun T hT => (hch T hT).2.1).trans (hs.trans (by rw [hv]; exact intsTo_nil m))⟩

/-- **C99, both graphs on the standard input.** `stonesparse` with both formats and no other source is refused, whatever the text: the first graph is read to the end,
and nothing is left for the second. -/
theorem C99_one_stdin (text : Str) (a : BipArgs) (ha : a.source = .kthlist []) : (DagCmd.stonesparse text a).cnf = raise .valueError := by
  have hb : obtainBip a = raise .valueError := by
    unfold obtainBip BipArgs.planted
    rw [ha]
    rfl
  rcases dagOfText_cases text with ⟨_, h2⟩ | ⟨n, adj, g, h, hn, e, _⟩
  · simp only [DagCmd.cnf]; rw [h2, M.raise_bind]
  · simp only [DagCmd.cnf]; rw [e, M.pure_bind, hb, M.raise_bind]

/-- **C99, the clauses.** The clauses of `stone` say, of the graph listed: each vertex has a stone, and the stones follow the rules; those of `peb` the pebbling rules. -/
theorem C99_clauses {text : Str} {n : Nat} {adj : List (Int × List Int)} (h : KthText text n adj) :
    (∀ {F}, pebText text = pure F → F.vars = intsTo n ∧
      Says (intsTo n) F.clauses ({φ | ∃ v ∈ intsTo n, φ = fun α => (∀ p, Listed adj p v → α p = true) → α v = true} ∪
        {φ | ∃ v ∈ intsTo n, (∀ w, ¬ Listed adj v w) ∧ φ = fun α => α v = false})) ∧
    (∀ {s F}, (DagCmd.stone s text).cnf = pure F → ∃ g : Digraph Int, g.verts = intsTo n ∧ (∀ a b, (a, b) ∈ g.edges ↔ Listed adj a b) ∧
      Says F.vars F.clauses ({φ | ∃ v ∈ intsTo n, φ = fun α => ∃ j, (1 ≤ j ∧ j ≤ s.toNat) ∧ α (fmtV intStr 'P' v j) = true} ∪
        stoneRules g (fun _ => oneTo s.toNat) (fmtV intStr 'P') (fmt1 ['R']))) := by
  have key : ∀ g, dagOfText text = pure g → g.Wf ∧ g.verts = intsTo n ∧ ∀ a b, (a, b) ∈ g.edges ↔ Listed adj a b := by
    intro g e
    obtain ⟨G, e1, e2⟩ := M.bind_eq_pure.1 e
    obtain rfl := (M.pure_inj _ _).1 e2
    by_cases hc : NoCycle (Listed adj)
    · obtain ⟨G', e', hd, hv, hw, hE⟩ := (C71_kth_dag h).1 hc
      obtain rfl := (M.pure_inj _ _).1 (e1.symm.trans e')
      refine ⟨⟨hw.nodup, hw.ends⟩, hv, fun a b => ?_⟩
      rw [← hE, hasEdge_iff, hd]
      simp
    · rw [(C71_kth_dag h).2 hc] at e1; simp at e1
  constructor
  · intro F hF
    obtain ⟨g, e, hF⟩ := M.bind_eq_pure.1 hF
    obtain ⟨hw, hv, hE⟩ := key g e
    have hs := C82_pebbling hw hF
    have hac : g.Acyclic := by
      by_contra hac
      rw [(C64_pebbling g hw).1 hac] at hF
      simp at hF
    obtain ⟨F', h1, h2, _⟩ := (C64_pebbling g hw).2 hac
    obtain rfl := (M.pure_inj _ _).1 (hF.symm.trans h1)
    refine ⟨h2.trans hv, ?_⟩
    rw [h2.trans hv] at hs
    simp only [hE, hv] at hs
    exact hs
  · intro s F hF
    obtain ⟨g, e, hF⟩ := M.bind_eq_pure.1 hF
    obtain ⟨hw, hv, hE⟩ := key g e
    refine ⟨g, hv, hE, ?_⟩
    have := C82_stone hw hF
    rw [hv] at this
    exact this

/-- **C99, the clauses of `stonesparse`.** They say, of the directed graph listed and the bipartite graph given: each vertex has one of the stones allowed to it, and the stones
follow the rules. -/
theorem C99_sparse_clauses {text : Str} {n : Nat} {adj : List (Int × List Int)} (h : KthText text n adj) {a : BipArgs} (ha : a.Legal) {F : CNF Str}
    (hF : (DagCmd.stonesparse text a).cnf = pure F) : ∃ (g : Digraph Int) (b : BiGraph), g.verts = intsTo n ∧ (∀ a b, (a, b) ∈ g.edges ↔ Listed adj a b) ∧ a.Gives b ∧ b.left.length = n ∧
      Says F.vars F.clauses ({φ | ∃ v ∈ intsTo n, φ = fun α => ∃ j ∈ stoneImages g b v, α (fmtV intStr 'X' v j) = true} ∪
        stoneRules g (stoneImages g b) (fmtV intStr 'X') (fmt1 ['R'])) := by
  obtain ⟨g, e, hF⟩ := M.bind_eq_pure.1 hF
  obtain ⟨G, _, hG, hF⟩ := obtained ha hF
  rcases dagOfText_cases text with ⟨_, k⟩ | ⟨m, adj', g', h', hn', e', hw, hac, hv, hE, hu⟩
  · rw [k] at e; simp at e
  obtain rfl := (M.pure_inj _ _).1 (e.symm.trans e')
  have hc : NoCycle (Listed adj) := by
    by_contra hc
    obtain ⟨G', e1, _⟩ := M.bind_eq_pure.1 e
    rw [(C71_kth_dag h).2 hc] at e1
    simp at e1
  obtain rfl := hu n ⟨adj, h, hc⟩
  have hE : ∀ a b, (a, b) ∈ g.edges ↔ Listed adj a b := by
    obtain ⟨G', e1, e2⟩ := M.bind_eq_pure.1 e
    obtain rfl := (M.pure_inj _ _).1 e2
    obtain ⟨G'', e3, hd, _, _, hE'⟩ := (C71_kth_dag h).1 hc
    obtain rfl := (M.pure_inj _ _).1 (e1.symm.trans e3)
    intro a b
    rw [← hE', hasEdge_iff, hd]
    simp
  have hl : G.toBip.left.length = n := by
    by_contra hl
    rw [(C64_sparse_stone intStr (fun _ _ h => intStr_injective h) g hw G.toBip).1 (.inr (by rw [hv, intsTo_length]; exact hl))] at hF
    simp at hF
  refine ⟨g, G.toBip, hv, hE, hG, hl, ?_⟩
  have := C82_sparse_stone hw hF
  rw [hv] at this
  exact this

/-! ### Instances -/

/-- A path of two vertices on the standard input: listed, and the formula of `stone 1`, literally. -/
example : DagListed "2\n1 : 0\n2 : 1 0\n".toList 2 ∧
    cnfgen id (fun _ => some ((DagCmd.stone 1 "2\n1 : 0\n2 : 1 0\n".toList).args false fun _ => [])) (fun _ => none) (cmdLine ["stone".toList] []) =
      pure (some "p cnf 3 4\n1 0\n2 0\n-1 3 0\n-2 -3 0\n".toList) := by
  constructor
  · refine ⟨[(1, []), (2, [1])], ⟨"2".toList, ["1 : 0".toList, "2 : 1 0".toList], by decide, by decide, by decide, ?_, by decide⟩, ?_⟩
    · refine .cons ⟨"1 ".toList, " 0".toList, by decide, by decide, by decide, by decide, by decide⟩
        (.cons ⟨"2 ".toList, " 1 0".toList, by decide, by decide, by decide, by decide, by decide⟩ .nil)
    · have hlt : ∀ a b, Listed [(1, []), (2, [1])] a b → a < b := by
        rintro a b ⟨x, hx, rfl, hs⟩
        simp only [List.mem_cons, List.not_mem_nil, or_false] at hx
        rcases hx with rfl | rfl <;> simp at hs ⊢
        omega
      intro v hv
      have : ∀ a b, Relation.TransGen (Listed [(1, []), (2, [1])]) a b → a < b := by
        intro a b h
        induction h with
        | single h => exact hlt _ _ h
        | tail _ h ih => exact lt_trans ih (hlt _ _ h)
      exact absurd (this v v hv) (lt_irrefl v)
  · rfl

/-- A cycle, and a text that is no list: refused. -/
example : (DagCmd.stone 1 "2\n1 : 2 0\n2 : 1 0\n".toList).cnf = raise .valueError ∧ pebText "x\n".toList = raise .valueError := ⟨rfl, rfl⟩

end NDP.Cnfgen
