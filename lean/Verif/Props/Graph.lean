import Verif.Props.Verdict
import Verif.Props.Normal
import Verif.Proofs.Determ
/-
  C17-C20: the node graph of a run (without the global DB) and its statistics.
-/
namespace NDP
open Spec SetObj
variable {H : Type} [DecidableEq H]

/-! ### specification -/

/-- The text of a formula: literals joined by `|`, clauses by `&`. -/
def textOf (F : Cnf) : Str := joinWith ['&'] (F.map fun c => joinWith ['|'] (c.map intStr))

/-- `N` is `F` in the normal form of a mode: the same clauses up to order and renaming, variables numbered `1..n` in
order of first occurrence, literals ascending, clauses ordered by leading variable (flo, flop, lo). -/
structure NormalForm (mode : Mode) (F N : Cnf) : Prop where
  rename : ∃ ρ : Nat → Nat, (∀ u ∈ varsOf N, ∀ v ∈ varsOf N, ρ u = ρ v → u = v) ∧ SameClauses (mapCnf ρ N) F
  vars : ∃ n, varsOf N = List.range' 1 n
  asc : ∀ c ∈ N, c ≠ [] ∧ c.Pairwise fun a b => a.natAbs < b.natAbs
  lead : mode = .flo ∨ mode = .flop ∨ mode = .lo →
    N.Pairwise fun c d => ∀ a ∈ c.head?, ∀ b ∈ d.head?, a.natAbs ≤ b.natAbs

/-- The edges of the formula `G` for value `b` of its leading variable: none when the branch is T or F, otherwise one,
to the digest of a normal form of the branch. -/
inductive EdgesFor (hash : Str → H) (mode : Mode) (G : Cnf) (p : Nat) (b : Bool) : List H → Prop
  | const (h : residual [((p : Int), b)] G = [] ∨ [] ∈ residual [((p : Int), b)] G) : EdgesFor hash mode G p b []
  | node (N : Cnf) (h1 : residual [((p : Int), b)] G ≠ []) (h2 : [] ∉ residual [((p : Int), b)] G)
      (hN : NormalForm mode (residual [((p : Int), b)] G) N) : EdgesFor hash mode G p b [hash (textOf N)]

/-- `h` is the digest of a formula `G`, and `ks` are the edges of `G`: those for its leading variable true, then those
for it false. -/
def GraphNode (hash : Str → H) (mode : Mode) (h : H) (ks : List H) : Prop :=
  ∃ (G : Cnf) (x : Int) (xs : List Int) (cs : Cnf) (k1 k2 : List H), G = (x :: xs) :: cs ∧ h = hash (textOf G) ∧
    EdgesFor hash mode G x.natAbs true k1 ∧ EdgesFor hash mode G x.natAbs false k2 ∧ ks = k1 ++ k2

/-- The mode in which the nodes below the root are normalised: mode `lo` is for the root only. -/
def modeBelow : Mode → Mode
  | .lo => .lou
  | m => m

/-! ### from the model to the specification -/

theorem inputMode_eq (a : Args) : inputMode a = modeBelow a.mode := by
  unfold inputMode modeBelow
  cases a.mode <;> rfl

theorem bodyStr_text {cls : List Clause} (h : ∀ c ∈ cls, c.raw ≠ []) : bodyStr cls = textOf (raws cls) := by
  rw [bodyStr_eq h]
  rfl

theorem toLo_normalForm (mode : Mode) (z th : Bool) {s s' : SetObj H} (h : Fresh s)
    (hnd : ∀ c ∈ raws s.clauses, (c.map Int.natAbs).Nodup) (hrun : s.toLo mode z th = pure s') :
    NormalForm mode (raws s.clauses) (raws s'.clauses) := by
  obtain ⟨h1, h2, h3, h4⟩ := C10_normalised_order mode z th h hrun
  obtain ⟨k1, k2, k3, _⟩ := C11_normalisation_renames mode z th h hrun
  obtain ⟨t, n, L, e1, hN, _⟩ := toLo_ok mode z th s h.fnm h.ne h.cne
  have e := (M.pure_inj _ _).1 (hrun.symm.trans e1)
  subst e
  refine ⟨⟨_, ?_, k3⟩, h1, fun c hc => ⟨?_, h3 hnd c hc⟩, h4⟩
  · intro u hu v hv e
    exact bk_inj k2 (k1 u hu) (k1 v hv) e
  · obtain ⟨c0, hc0, rfl⟩ := List.mem_map.1 hc
    exact hN.cne c0 hc0

variable {hash : Str → H} {a : Args} {im : Mode}

theorem residual_nodup {d : Dict Int Bool} {G : Cnf} (h : ∀ c ∈ G, (c.map Int.natAbs).Nodup) :
    ∀ c ∈ residual d G, (c.map Int.natAbs).Nodup := by
  intro c hc
  obtain ⟨c0, h0, _, rfl⟩ := mem_residual.1 hc
  exact (h c0 h0).sublist ((List.filter_sublist).map _)

theorem asc_nodup {c : List Int} (h : Asc c) : (c.map Int.natAbs).Nodup := by
  rw [List.Nodup, List.pairwise_map]
  exact h.imp (fun h => Nat.ne_of_lt h)

theorem child_fresh {s ch : SetObj H} {b : Bool} (hch : IsChild s b ch) (hv : ch.value = none) : Fresh ch := by
  rw [hch.value] at hv
  have h1 : [] ∉ branch (pivotOf (raws s.clauses)) b (raws s.clauses) := by
    intro hm; rw [childVal_false.2 hm] at hv; simp at hv
  have h2 : branch (pivotOf (raws s.clauses)) b (raws s.clauses) ≠ [] := by
    intro hm; rw [childVal_true.2 hm] at hv; simp at hv
  have h3 := hch.clauses
  rw [nonempties_eq h1] at h3
  refine ⟨?_, ?_, hch.fnm⟩
  · intro e; rw [e] at h3; exact h2 h3.symm
  · intro c hc e
    apply h1
    rw [← h3]
    exact List.mem_map.2 ⟨c, hc, e⟩

theorem kids_edges {R : Cnf} (hR : Proper R) {s ch : SetObj H} {b : Bool} (hs : Tracks R s) (hch : IsChild s b ch) :
    EdgesFor hash im (raws s.clauses) (pivotOf (raws s.clauses)) b (kidsOf hash a im ch) := by
  have hT : ch.value = some true ↔ residual [((pivotOf (raws s.clauses) : Int), b)] (raws s.clauses) = [] := by
    rw [hch.value]; exact childVal_true
  have hFa : ch.value = some false ↔ [] ∈ residual [((pivotOf (raws s.clauses) : Int), b)] (raws s.clauses) := by
    rw [hch.value]; exact childVal_false
  match hv : ch.value with
  | some v =>
    have : kidsOf hash a im ch = [] := by unfold kidsOf; rw [hv]
    rw [this]
    apply EdgesFor.const
    cases v
    · exact Or.inr (hFa.1 hv)
    · exact Or.inl (hT.1 hv)
  | none =>
    obtain ⟨c, hlo, htr, _⟩ := toLo_tracks hR im a.sortBySize a.thief (hch.pre hs hv)
    have hk : kidsOf hash a im ch = [hid hash c] := by unfold kidsOf; rw [hv, hlo]; rfl
    have hf := child_fresh hch hv
    have hn : [] ∉ residual [((pivotOf (raws s.clauses) : Int), b)] (raws s.clauses) := by
      intro hm; rw [hFa.2 hm] at hv; simp at hv
    have hn2 : residual [((pivotOf (raws s.clauses) : Int), b)] (raws s.clauses) ≠ [] := by
      intro hm; rw [hT.2 hm] at hv; simp at hv
    have hcl : raws ch.clauses = residual [((pivotOf (raws s.clauses) : Int), b)] (raws s.clauses) := by
      rw [hch.clauses]; exact nonempties_eq hn
    have hnf := toLo_normalForm im _ _ hf (by
      rw [hcl]
      apply residual_nodup
      intro c hc
      obtain ⟨c0, hc0, rfl⟩ := List.mem_map.1 hc
      exact asc_nodup (hs.node.asc c0 hc0)) hlo
    rw [hcl] at hnf
    rw [hk, hid, bodyStr_text htr.node.cne]
    exact EdgesFor.node _ hn2 hn hnf

theorem kids_graphNode {R : Cnf} (hR : Proper R) {s : SetObj H} (hs : Tracks R s) {ks : List H}
    (hk : Kids hash a im s ks) : GraphNode hash im (hid hash s) ks := by
  obtain ⟨l, r, hev, rfl⟩ := hk
  obtain ⟨l1, r1, hev1, hl, hr⟩ := evaluate_ok hs.node
  cases pure_inj_some (hev.symm.trans hev1)
  have e1 := kids_edges (hash := hash) (a := a) (im := im) hR hs hl
  have e2 := kids_edges (hash := hash) (a := a) (im := im) hR hs hr
  cases hc : s.clauses with
  | nil => exact absurd hc hs.node.ne
  | cons c cs =>
    cases hcr : c.raw with
    | nil => exact absurd hcr (hs.node.cne c (by simp [hc]))
    | cons x xs =>
      have hG : raws s.clauses = (x :: xs) :: raws cs := by simp [hc, raws, hcr]
      have hp : pivotOf (raws s.clauses) = x.natAbs := by rw [hG]; rfl
      rw [hp] at e1 e2
      exact ⟨raws s.clauses, x, xs, raws cs, _, _, hG, by rw [hid, bodyStr_text hs.node.cne], e1, e2, rfl⟩

/-- Edges lead to smaller formulas. -/
theorem graph_rank {R : Cnf} (hR : Proper R) {s0 : SetObj H} (h0 : Tracks R s0) (hcoll : NoColl hash a im s0)
    {nc : Dict H (List H)} (hg : Graph hash a im s0 nc) :
    ∃ rank : H → Nat, ∀ h ks k, nc.get? h = some ks → k ∈ ks → rank k < rank h := by
  classical
  let rank : H → Nat := fun h => if hx : ∃ s, Met hash a im s0 s ∧ hid hash s = h then size (raws hx.choose.clauses) else 0
  have hrank : ∀ s, Met hash a im s0 s → rank (hid hash s) = size (raws s.clauses) := by
    intro s hs
    have hx : ∃ t, Met hash a im s0 t ∧ hid hash t = hid hash s := ⟨s, hs, rfl⟩
    simp only [rank, dif_pos hx]
    rw [hcoll _ _ hx.choose_spec.1 hs hx.choose_spec.2]
  refine ⟨rank, ?_⟩
  intro h ks k hk hkk
  obtain ⟨s, hs, rfl, hor⟩ := hg.node h ks hk
  rcases hor with rfl | ⟨l, r, hev, rfl⟩
  · simp at hkk
  have ht := hs.tracks hash a im hR h0
  obtain ⟨l', r', hev', hl, hr⟩ := evaluate_ok ht.node
  cases pure_inj_some (hev.symm.trans hev')
  have main : ∀ ch b, (ch = l ∨ ch = r) → IsChild s b ch → k ∈ kidsOf hash a im ch → rank k < rank (hid hash s) := by
    intro ch b hor hch hm
    match hv : ch.value with
    | some v => unfold kidsOf at hm; rw [hv] at hm; simp at hm
    | none =>
      obtain ⟨c, hlo, htr, hsz, _⟩ := toLo_tracks hR im a.sortBySize a.thief (hch.pre ht hv)
      have hkc : k = hid hash c := by
        unfold kidsOf at hm; rw [hv, hlo] at hm
        simpa [pure, ExceptT.pure, ExceptT.mk] using hm
      have hmet := Met.child hs hev hor hv hlo
      have hidc : hid hash (store a.useRuntimeDb (childItem hash c)) = hid hash c :=
        hid_store hash (toLo_childItem_tracks hash a im hR ht hch hv hlo).node _
      have h1 := hrank _ hmet
      rw [hidc, raws_store] at h1
      rw [hkc, hrank s hs, h1]
      have := hch.size_lt ht
      show size (raws c.clauses) < _
      omega
  rcases List.mem_append.1 hkk with hm | hm
  · exact main l true (Or.inl rfl) hl hm
  · exact main r false (Or.inr rfl) hr hm

/-! ### C17 -/

/-- A run that expanded everything it met: without `-e`, or without a solution. -/
def Complete (a : Args) (rep : Report H) : Prop := ¬ (a.exitUponSolving = true ∧ rep.isSat = true)

/-- `y` is recorded as a child of `x`. -/
def IsEdge (rep : Report H) (x y : H) : Prop := ∃ ks, rep.nodesChildren.get? x = some ks ∧ y ∈ ks

theorem solveSet_graph {ha : Local a} {env : EnvChoice}
    (hf : a.useRuntimeDb = true → env.mainFails = false) {g : Gdb H} {F : Cnf} (hF : Proper F) (hne : F ≠ [])
    {root : SetObj H} (h : Input F root) {rep : Report H} (hrun : solveSet hash a env g root = pure rep) :
    ∃ s ps, prepareRoot hash a root = pure (s, hid hash s) ∧ Ready hash a F s ∧
      Result hash a (inputMode a) F s ps ∧ Reported a (hid hash s) ps rep ∧
      NormalForm a.mode (raws root.clauses) (raws s.clauses) ∧
      (maxThreads env.cpu a = 0 → ∀ k ∈ ps.nodesChildren.keys, Reach ps.nodesChildren (hid hash s) k) ∧
      (maxThreads env.cpu a = 0 → ps.uniques = ps.nodesChildren.length) := by
  have hl := h.loaded hF hne
  obtain ⟨s, hs, hr, hsat, _, _⟩ := prepareRoot_ok hash a hF hl
  rw [solveSet_eq hash a ha.gdb ha.nomem hf g hl hs, M.bind_eq_pure] at hrun
  obtain ⟨ps, hps, hfin⟩ := hrun
  have hres := runMain_sound hash a (inputMode a) ha.gdb [] g (maxThreads env.cpu a) hF hr hps
  obtain ⟨rep', hrep', hR'⟩ := finish_ok hash a hres
  have e := (M.pure_inj _ _).1 (hfin.symm.trans hrep')
  subst e
  refine ⟨s, ps, hs, hr, hres, hR', ?_, ?_, ?_⟩
  · have hpre := loaded_pre hl
    have hs' := hs
    unfold prepareRoot at hs'
    simp only at hs'
    obtain ⟨t, ht, hs'⟩ := M.bind_eq_pure.1 hs'
    obtain ⟨⟨k, t'⟩, ht', hs'⟩ := M.bind_eq_pure.1 hs'
    have e := (M.pure_inj _ _).1 hs'
    simp only [Prod.mk.injEq] at e
    have hcl : s.clauses = t.clauses := by
      rw [← e.1]
      unfold getHash at ht'
      have : t'.clauses = t.clauses := by
        split at ht'
        · next heq => simp at heq
        · obtain ⟨b, _, ht'⟩ := M.bind_eq_pure.1 ht'
          have := (M.pure_inj _ _).1 ht'
          simp only [Prod.mk.injEq] at this
          rw [← this.2]
      exact this
    rw [hcl]
    refine toLo_normalForm (s := { root with originalValues := root.getVariables.map fun v => (v, v) }) a.mode _ _
      ⟨hpre.ne, hpre.cne, hpre.fnm⟩ ?_ ht
    intro c hc
    exact (hl.proper c hc).2.1
  · intro h0
    rw [h0] at hps
    obtain ⟨⟨l, hi⟩, hu⟩ := runMain_single hash a (inputMode a) ha.gdb [] g hF hr hps
    exact hi.reach
  · intro h0
    rw [h0] at hps
    exact (runMain_single hash a (inputMode a) ha.gdb [] g hF hr hps).2

/-- **C17** The node graph of a run is well formed.  Always: the root is a normal form of the input, every edge leads to
a recorded node, and the graph has no cycle.  If the run was complete: the edges of every node are exactly those of its
formula, and every node can be reached from the root (without the thief method; with it, for a single process). -/
theorem C17_graph_well_formed (ha : Local a) {env : EnvChoice}
    (hf : a.useRuntimeDb = true → env.mainFails = false) {g : Gdb H} {F : Cnf} (hF : Proper F) (hne : F ≠ [])
    {root : SetObj H} (h : Input F root) (hcoll : NoCollisions hash a root)
    {rep : Report H} (hrun : solveSet hash a env g root = pure rep) :
    ∃ N0, NormalForm a.mode F N0 ∧ hash (textOf N0) ∈ rep.nodesChildren.keys ∧
      (∀ x y, IsEdge rep x y → y ∈ rep.nodesChildren.keys) ∧
      (∃ rank : H → Nat, ∀ x y, IsEdge rep x y → rank y < rank x) ∧
      (Complete a rep → ∀ x ks, rep.nodesChildren.get? x = some ks → GraphNode hash (modeBelow a.mode) x ks) ∧
      (Complete a rep → a.thief = false ∨ maxThreads env.cpu a = 0 →
        ∀ x ∈ rep.nodesChildren.keys, Relation.ReflTransGen (IsEdge rep) (hash (textOf N0)) x) := by
  obtain ⟨s, ps, hs, hr, hres, hrep, hnf, hreach, _⟩ := solveSet_graph (ha := ha) hf hF hne h hrun
  have hid0 : hash (textOf (raws s.clauses)) = hid hash s := by rw [hid, bodyStr_text hr.tracks.node.cne]
  have hedge : IsEdge rep = Edge ps.nodesChildren := by
    funext x y; unfold IsEdge Edge; rw [hrep.nodesChildren]
  refine ⟨raws s.clauses, ⟨?_, hnf.vars, hnf.asc, hnf.lead⟩, ?_, ?_, ?_, ?_, ?_⟩
  · obtain ⟨ρ, h1, h2⟩ := hnf.rename
    exact ⟨ρ, h1, h2.trans h.same⟩
  · rw [hid0, hrep.nodesChildren]; exact hres.graph.rootMem
  · rintro x y ⟨ks, h1, h2⟩
    rw [hrep.nodesChildren] at h1 ⊢
    exact hres.graph.closed x ks y h1 h2
  · obtain ⟨rank, hrk⟩ := graph_rank hF hr.tracks (hcoll s _ hs) hres.graph
    refine ⟨rank, ?_⟩
    rintro x y ⟨ks, h1, h2⟩
    rw [hrep.nodesChildren] at h1
    exact hrk x ks y h1 h2
  · intro hc x ks hx
    unfold Complete at hc
    rw [hrep.isSat] at hc
    rw [hrep.nodesChildren] at hx
    obtain ⟨ks', t, e1, e2, rfl, e4⟩ := hres.full hc x (Dict.mem_keys_of_get? hx)
    rw [hx] at e1
    cases e1
    rw [← inputMode_eq]
    exact kids_graphNode hF (e2.tracks hash a _ hF hr.tracks) e4
  · intro hc hor x hx
    unfold Complete at hc
    rw [hrep.isSat] at hc
    rw [hrep.nodesChildren] at hx
    rw [hid0, hedge]
    rcases hor with hth | h0
    · exact hres.reach hash a _ hth hF hr.tracks (hcoll s _ hs) hc x hx
    · exact hreach h0 x hx

/-! ### C18 -/

/-- `V` lists, each once, the nodes reachable from `x`. -/
def Lists (rep : Report H) (x : H) (V : List H) : Prop :=
  V.Nodup ∧ ∀ y, y ∈ V ↔ Relation.ReflTransGen (IsEdge rep) x y

/-- The recorded edges of a node. -/
def edgesOf (rep : Report H) (x : H) : List H := (rep.nodesChildren.get? x).getD []

/-- Number of edges leading from the nodes `V` into `y`. -/
def inDegree (rep : Report H) (V : List H) (y : H) : Nat := (V.map fun x => (edgesOf rep x).count y).sum

theorem enumerates_lists {rep : Report H} {x : H} {V : List H} : Enumerates rep.nodesChildren x V ↔ Lists rep x V := by
  have : (fun x y => y ∈ kidsAt rep.nodesChildren x) = IsEdge rep := by
    funext x y
    unfold kidsAt IsEdge
    apply propext
    cases rep.nodesChildren.get? x <;> simp
  unfold Enumerates Lists
  rw [this]

/-- **C18** The reported statistics are exact: a run with statistics reports them for every recorded node, and for a node `x`, with
`V` the nodes reachable from it, the unique count is the size of `V`, the redundant count is the number of nodes of `V`
entered by two or more edges from `V`, and redundant hits is the number of edges from `V` that do not lead to a new
node (a traversal meets every node of `V` other than `x` for the first time through one edge).  The figures printed for
the run are those of the root. -/
theorem C18_stats_exact (ha : Local a) (hst : a.noStats = false) {env : EnvChoice}
    (hf : a.useRuntimeDb = true → env.mainFails = false) {g : Gdb H} {F : Cnf} (hF : Proper F) (hne : F ≠ [])
    {root : SetObj H} (h : Input F root) (hcoll : NoCollisions hash a root)
    {rep : Report H} (hrun : solveSet hash a env g root = pure rep) :
    (∀ x ∈ rep.nodesChildren.keys, ∃ st V, rep.stats.get? x = some st ∧ Lists rep x V ∧ st.unique = V.length ∧
      st.redundants = (V.filter fun y => decide (2 ≤ inDegree rep V y)).length ∧
      st.hits + (V.length - 1) = (V.map fun y => (edgesOf rep y).length).sum) ∧
    (∃ N0 st, NormalForm a.mode F N0 ∧ rep.stats.get? (hash (textOf N0)) = some st ∧
      rep.uniques = st.unique ∧ rep.redundants = st.redundants ∧ rep.redundantHits = st.hits) := by
  obtain ⟨s, ps, hs, hr, hres, hrep, hnf, hreach, _⟩ := solveSet_graph (ha := ha) hf hF hne h hrun
  obtain ⟨rank, hrk⟩ := graph_rank hF hr.tracks (hcoll s _ hs) hres.graph
  obtain ⟨red, hcg, st0, k1, k2, k3, k4⟩ := hrep.stats hst
  obtain ⟨stats, red', hcg', hall⟩ := constructGraphStats_ok hres.graph.closed hres.graph.nd (hid hash s)
  have e := (M.pure_inj _ _).1 (hcg.symm.trans hcg')
  simp only [Prod.mk.injEq] at e
  obtain ⟨e, -⟩ := e
  subst e
  refine ⟨?_, raws s.clauses, st0, ⟨?_, hnf.vars, hnf.asc, hnf.lead⟩, ?_, k2, k3, k4⟩
  · intro x hx
    rw [hrep.nodesChildren] at hx
    obtain ⟨st, r, V, h1, _, h3, h4, h5, _⟩ := hall x hx
    refine ⟨st, V, h1, ?_, h5.unique, ?_, ?_⟩
    · rw [← enumerates_lists, hrep.nodesChildren]; exact h3
    · rw [h5.acyclic h3 rank ?_]
      · unfold inDegree edgesOf edgesInto kidsAt
        rw [hrep.nodesChildren]
      · intro y z hz
        unfold kidsAt at hz
        cases hy : ps.nodesChildren.get? y with
        | none => rw [hy] at hz; simp at hz
        | some ks => rw [hy] at hz; exact hrk y ks z hy hz
    · have := h5.hits
      have hpos : 0 < V.length := List.length_pos_of_mem ((h3.2 x).2 Relation.ReflTransGen.refl)
      unfold edgesOf
      rw [hrep.nodesChildren]
      show _ = (V.map fun h => (kidsAt ps.nodesChildren h).length).sum
      omega
  · obtain ⟨ρ, h1, h2⟩ := hnf.rename
    exact ⟨ρ, h1, h2.trans h.same⟩
  · rw [← bodyStr_text hr.tracks.node.cne]; exact k1

/-! ### C19 -/

/-- **C19** After a complete run the reported unique count is the number of nodes in the graph (without the thief
method, or with a single process). -/
theorem C19_counts_agree (ha : Local a) (hst : a.noStats = false) {env : EnvChoice}
    (hf : a.useRuntimeDb = true → env.mainFails = false) {g : Gdb H} {F : Cnf} (hF : Proper F) (hne : F ≠ [])
    {root : SetObj H} (h : Input F root) (hcoll : NoCollisions hash a root)
    {rep : Report H} (hrun : solveSet hash a env g root = pure rep) (hc : Complete a rep)
    (hor : a.thief = false ∨ maxThreads env.cpu a = 0) :
    rep.uniques = rep.nodesChildren.length ∧ rep.nodesChildren.keys.Nodup := by
  obtain ⟨s, ps, hs, hr, hres, hrep, hnf, hreach, _⟩ := solveSet_graph (ha := ha) hf hF hne h hrun
  have hre : ∀ x ∈ ps.nodesChildren.keys, Reach ps.nodesChildren (hid hash s) x := by
    unfold Complete at hc
    rw [hrep.isSat] at hc
    rcases hor with hth | h0
    · exact hres.reach hash a _ hth hF hr.tracks (hcoll s _ hs) hc
    · exact hreach h0
  obtain ⟨red, hcg, st0, k1, k2, k3, k4⟩ := hrep.stats hst
  obtain ⟨stats, red', hcg', hall⟩ := constructGraphStats_ok hres.graph.closed hres.graph.nd (hid hash s)
  have e := (M.pure_inj _ _).1 (hcg.symm.trans hcg')
  simp only [Prod.mk.injEq] at e
  obtain ⟨e, -⟩ := e
  subst e
  obtain ⟨st, r, V, h1, _, h3, h4, h5, _⟩ := hall _ hres.graph.rootMem
  rw [k1] at h1
  cases h1
  rw [hrep.nodesChildren]
  refine ⟨?_, hres.graph.nd⟩
  rw [k2, h5.unique, ← Dict.length_keys]
  apply List.Perm.length_eq
  rw [List.perm_ext_iff_of_nodup h3.1 hres.graph.nd]
  intro k
  refine ⟨h4 k, fun hk => ?_⟩
  rw [h3.2]
  have : (fun x y => y ∈ kidsAt ps.nodesChildren x) = Edge ps.nodesChildren := by
    funext x y
    unfold kidsAt Edge
    apply propext
    cases ps.nodesChildren.get? x <;> simp
  rw [this]
  exact hre k hk

/-- With `-ns` (no statistics) a single process reports the counter it kept: also the number of nodes. -/
theorem C19_counter_exact (ha : Local a) (hst : a.noStats = true) {env : EnvChoice} (h0 : maxThreads env.cpu a = 0)
    (hf : a.useRuntimeDb = true → env.mainFails = false) {g : Gdb H} {F : Cnf} (hF : Proper F) (hne : F ≠ [])
    {root : SetObj H} (h : Input F root) {rep : Report H} (hrun : solveSet hash a env g root = pure rep) :
    rep.uniques = rep.nodesChildren.length := by
  obtain ⟨s, ps, hs, hr, hres, hrep, hnf, _, hu⟩ := solveSet_graph (ha := ha) hf hF hne h hrun
  rw [(hrep.counters hst).1, hrep.nodesChildren]
  exact hu h0

/-! ### C20 -/

/-- Two runs that differ at most in `-t`, `-e`, `-ns` and the environment normalise and branch alike. -/
def SameSearch (a b : Args) : Prop :=
  a.mode = b.mode ∧ a.sortBySize = b.sortBySize ∧ a.thief = b.thief ∧ a.useRuntimeDb = b.useRuntimeDb

theorem met_args {a b : Args} (hab : SameSearch a b) {im : Mode} {s0 s : SetObj H} (h : Met hash a im s0 s) :
    Met hash b im s0 s := by
  obtain ⟨h1, h2, h3, h4⟩ := hab
  induction h with
  | root => rw [h4]; exact Met.root
  | child hs hev hch hv hlo ih =>
    rw [h4]
    rw [h2, h3] at hlo
    exact Met.child ih hev hch hv hlo

theorem graphOf_args {a b : Args} (hab : SameSearch a b) {im : Mode} {s0 : SetObj H} {k : H} {ks : List H}
    (h : GraphOf hash a im s0 k ks) : GraphOf hash b im s0 k ks := by
  obtain ⟨s, h1, h2, l, r, h3, h4⟩ := h
  refine ⟨s, met_args hab h1, h2, l, r, h3, ?_⟩
  rw [h4]
  unfold kidsOf
  rw [hab.2.1, hab.2.2.1]

theorem prepareRoot_args {a b : Args} (hab : SameSearch a b) (root : SetObj H) :
    prepareRoot hash a root = prepareRoot hash b root := by
  unfold prepareRoot
  rw [hab.1, hab.2.1, hab.2.2.1]

/-- **C20** With any number of workers, arriving in any order, the merged node graph is the graph a single process
builds: the same nodes, each with the same list of edges (no thief method, both runs complete). -/
theorem C20_threads_same_graph (ha : Local a) (hth : a.thief = false) {b : Args} (hb : Local b) (hab : SameSearch a b)
    {env env' : EnvChoice}
    (hf : a.useRuntimeDb = true → env.mainFails = false) (hf' : b.useRuntimeDb = true → env'.mainFails = false)
    {g g' : Gdb H} {F : Cnf} (hF : Proper F) (hne : F ≠ [])
    {root : SetObj H} (h : Input F root) (hcoll : NoCollisions hash a root)
    {rep rep' : Report H} (hrun : solveSet hash a env g root = pure rep) (hc : Complete a rep)
    (hrun' : solveSet hash b env' g' root = pure rep') (hc' : Complete b rep') (x : H) :
    rep.nodesChildren.get? x = rep'.nodesChildren.get? x := by
  have hba : SameSearch b a := ⟨hab.1.symm, hab.2.1.symm, hab.2.2.1.symm, hab.2.2.2.symm⟩
  have him : inputMode a = inputMode b := by unfold inputMode; rw [hab.1]
  obtain ⟨s, ps, hs, hr, hres, hrep, _⟩ := solveSet_graph (ha := ha) hf hF hne h hrun
  obtain ⟨s', ps', hs', hr', hres', hrep', _⟩ := solveSet_graph (ha := hb) hf' hF hne h hrun'
  rw [prepareRoot_args hab] at hs
  have e := (M.pure_inj _ _).1 (hs.symm.trans hs')
  simp only [Prod.mk.injEq] at e
  obtain ⟨e, -⟩ := e
  subst e
  have hcs : NoColl hash a (inputMode a) s := by
    apply hcoll s (hid hash s)
    rw [prepareRoot_args hab]; exact hs
  have hcs' : NoColl hash b (inputMode b) s := by
    intro u v hu hv
    rw [← him] at hu hv
    exact hcs u v (met_args hba hu) (met_args hba hv)
  unfold Complete at hc hc'
  rw [hrep.isSat] at hc
  rw [hrep'.isSat] at hc'
  rw [hrep.nodesChildren, hrep'.nodesChildren]
  apply Option.ext
  intro ks
  rw [hres.exact hash a _ hth hF hr.tracks hcs hc, hres'.exact hash b _ (hab.2.2.1 ▸ hth) hF hr'.tracks hcs' hc', him]
  exact ⟨graphOf_args hab, graphOf_args hba⟩

/-! ### non-vacuity -/

/-- The hypotheses of C17-C20 together: a formula, three workers against one process, both runs complete. -/
example : ∃ (env env' : EnvChoice) (rep rep' : Report Str),
    solveSet (fun s => s) { threads := 3, mode := .lo } env [] (mkSet exSat) = pure rep ∧
    solveSet (fun s => s) { threads := 1, mode := .lo } env' [] (mkSet exSat) = pure rep' ∧
    Complete { threads := 3, mode := .lo } rep ∧ Complete { threads := 1, mode := .lo } rep' ∧
    NoCollisions (fun s : Str => s) { threads := 3, mode := .lo } (mkSet exSat) ∧
    SameSearch { threads := 3, mode := .lo } { threads := 1, mode := .lo } ∧
    (∀ x, rep.nodesChildren.get? x = rep'.nodesChildren.get? x) ∧ rep.uniques = rep'.nodesChildren.length := by
  obtain ⟨env, hf⟩ := fair_exists { threads := 3, mode := .lo }
  obtain ⟨env', hf'⟩ := fair_exists { threads := 1, mode := .lo }
  have hI := input_mkSet (H := Str) exSat_proper (by simp [exSat])
  obtain ⟨rep, hrun⟩ := C03_terminates (fun s : Str => s) ⟨rfl, rfl⟩ hf [] exSat_proper (by simp [exSat]) hI
  obtain ⟨rep', hrun'⟩ := C03_terminates (fun s : Str => s) ⟨rfl, rfl⟩ hf' [] exSat_proper (by simp [exSat]) hI
  have hc := noCollisions_of_injective (hash := fun s : Str => s) (fun _ _ h => h) { threads := 3, mode := .lo } hI
    exSat_proper (by simp [exSat])
  have hab : SameSearch { threads := 3, mode := .lo } { threads := 1, mode := .lo } := ⟨rfl, rfl, rfl, rfl⟩
  have e1 : Complete { threads := 3, mode := .lo } rep := by simp [Complete]
  have e2 : Complete { threads := 1, mode := .lo } rep' := by simp [Complete]
  have h20 := fun x => C20_threads_same_graph (hash := fun s : Str => s) (a := { threads := 3, mode := .lo }) ⟨rfl, rfl⟩ rfl
    (b := { threads := 1, mode := .lo }) ⟨rfl, rfl⟩ hab hf.main hf'.main exSat_proper (by simp [exSat]) hI hc hrun e1 hrun' e2 x
  refine ⟨env, env', rep, rep', hrun, hrun', e1, e2, hc, hab, h20, ?_⟩
  obtain ⟨h19, hnd⟩ := C19_counts_agree (hash := fun s : Str => s) (a := { threads := 3, mode := .lo }) ⟨rfl, rfl⟩ rfl hf.main
    exSat_proper (by simp [exSat]) hI hc hrun e1 (Or.inl rfl)
  obtain ⟨_, hnd'⟩ := C19_counts_agree (hash := fun s : Str => s) (a := { threads := 1, mode := .lo }) ⟨rfl, rfl⟩ rfl hf'.main
    exSat_proper (by simp [exSat]) hI (noCollisions_of_injective (hash := fun s : Str => s) (fun _ _ h => h) _ hI exSat_proper (by simp [exSat]))
    hrun' e2 (Or.inl rfl)
  rw [h19, ← Dict.length_keys, ← Dict.length_keys]
  apply List.Perm.length_eq
  rw [List.perm_ext_iff_of_nodup hnd hnd']
  intro k
  rw [Dict.mem_keys_iff, Dict.mem_keys_iff, h20]

end NDP
