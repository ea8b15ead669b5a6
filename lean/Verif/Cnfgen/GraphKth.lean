import Verif.Cnfgen.GraphRead
/-
  C71: reading kthlist graph files, what is read.
-/
namespace NDP.Cnfgen
open NDP

/-! ### Adding edges -/
section
variable {V : Type} [DecidableEq V]

theorem addNode_mem {G : Nx V} {v : V} (h : v ∈ G.nodes) : G.addNode v = G := if_pos h

theorem addEdge_mem {G : Nx V} {u v : V} (hu : u ∈ G.nodes) (hv : v ∈ G.nodes) :
    G.addEdge u v = if G.hasEdge u v then G else { G with edges := G.edges ++ [(u, v)] } := by
  unfold Nx.addEdge
  rw [addNode_mem hu, addNode_mem hv]

/-- Two graphs equal but for their edges. -/
structure SameBut (G H : Nx V) : Prop where
  directed : H.directed = G.directed
  name : H.name = G.name
  nodes : H.nodes = G.nodes
  color : H.color = G.color
  topo : H.topo = G.topo

theorem addEdge_same {G : Nx V} {u v : V} (hu : u ∈ G.nodes) (hv : v ∈ G.nodes) : SameBut G (G.addEdge u v) := by
  rw [addEdge_mem hu hv]
  split <;> exact ⟨rfl, rfl, rfl, rfl, rfl⟩

theorem mem_addEdge {G : Nx V} {u v : V} (hu : u ∈ G.nodes) (hv : v ∈ G.nodes) {e : V × V} (h : e ∈ (G.addEdge u v).edges) : e ∈ G.edges ∨ e = (u, v) := by
  rw [addEdge_mem hu hv] at h
  split at h
  · exact .inl h
  · simpa using h

theorem hasEdge_iff {G : Nx V} {a b : V} : G.hasEdge a b = true ↔ (a, b) ∈ G.edges ∨ (G.directed = false ∧ (b, a) ∈ G.edges) := by
  simp [Nx.hasEdge]

theorem hasEdge_addEdge {G : Nx V} {u v : V} (hu : u ∈ G.nodes) (hv : v ∈ G.nodes) (a b : V) :
    (G.addEdge u v).hasEdge a b = true ↔ G.hasEdge a b = true ∨ (a = u ∧ b = v) ∨ (G.directed = false ∧ a = v ∧ b = u) := by
  rw [addEdge_mem hu hv]
  split
  · rename_i h
    rw [hasEdge_iff] at h
    rw [hasEdge_iff]
    constructor
    · exact .inl
    · rintro (h' | ⟨rfl, rfl⟩ | ⟨hd, rfl, rfl⟩)
      · exact h'
      · exact h
      · rcases h with h | ⟨_, h⟩
        · exact .inr ⟨hd, h⟩
        · exact .inl h
  · rw [hasEdge_iff, hasEdge_iff]
    simp only [List.mem_append, List.mem_singleton, Prod.mk.injEq]
    tauto

theorem addEdges_spec (t : V) : ∀ (ss : List V) (G : Nx V), t ∈ G.nodes → (∀ s ∈ ss, s ∈ G.nodes) →
    SameBut G (ss.foldl (fun G s => G.addEdge s t) G) ∧
    (∀ e ∈ (ss.foldl (fun G s => G.addEdge s t) G).edges, e ∈ G.edges ∨ (e.2 = t ∧ e.1 ∈ ss)) ∧
    ∀ a b, (ss.foldl (fun G s => G.addEdge s t) G).hasEdge a b = true ↔
      G.hasEdge a b = true ∨ (a ∈ ss ∧ b = t) ∨ (G.directed = false ∧ a = t ∧ b ∈ ss) := by
  intro ss
  induction ss with
  | nil => intro G _ _; exact ⟨⟨rfl, rfl, rfl, rfl, rfl⟩, fun e h => .inl h, by simp⟩
  | cons s ss ih =>
    intro G ht hs
    have hs0 : s ∈ G.nodes := hs s (by simp)
    have same := addEdge_same hs0 ht
    obtain ⟨i1, i2, i3⟩ := ih (G.addEdge s t) (by rw [same.nodes]; exact ht) (fun x hx => by rw [same.nodes]; exact hs x (by simp [hx]))
    rw [List.foldl_cons]
    refine ⟨⟨i1.directed.trans same.directed, i1.name.trans same.name, i1.nodes.trans same.nodes, i1.color.trans same.color, i1.topo.trans same.topo⟩, ?_, ?_⟩
    · intro e he
      rcases i2 e he with h | ⟨h1, h2⟩
      · rcases mem_addEdge hs0 ht h with h | rfl
        · exact .inl h
        · exact .inr ⟨rfl, by simp⟩
      · exact .inr ⟨h1, by simp [h2]⟩
    · intro a b
      rw [i3, hasEdge_addEdge hs0 ht, same.directed]
      simp only [List.mem_cons]
      tauto
end

/-! ### The bicoloring of a line -/

theorem foldl_setColor (c : Bool) : ∀ (ss : List Int) (G : Nx Int),
    (ss.foldl (fun G s => G.setColor s c) G) = { G with color := fun x => if x ∈ ss then some c else G.color x } := by
  intro ss
  induction ss with
  | nil => intro G; simp
  | cons s ss ih =>
    intro G
    rw [List.foldl_cons, ih]
    unfold Nx.setColor
    congr 1
    funext x
    by_cases h1 : x ∈ ss
    · simp [h1]
    · by_cases h2 : x = s <;> simp [h1, h2]

/-- The line agrees with the colors given before. -/
def Agree (color : Int → Option Bool) (t : Int) (ss : List Int) (d : Bool) : Prop :=
  (∀ s ∈ ss, color s = none ∨ color s = some (!d)) ∧ (color t = none ∨ color t = some d)

theorem recolor_spec (G : Nx Int) (t : Int) (ss : List Int) :
    (∃ d, Agree G.color t ss d ∧ ((∀ s ∈ ss, G.color s = none) → G.color t = none → d = false) ∧
      recolor G t ss = pure { G with color := fun x => if x ∈ ss then some (!d) else if x = t then some d else G.color x }) ∨
    ((¬ ∃ d, Agree G.color t ss d) ∧ recolor G t ss = raise .valueError) := by
  unfold recolor
  dsimp only
  generalize hc : ss.filterMap G.color ++ (G.color t).toList.map (!·) = colors
  have mem : ∀ b, b ∈ colors ↔ (∃ s ∈ ss, G.color s = some b) ∨ G.color t = some (!b) := by
    intro b
    rw [← hc, List.mem_append, List.mem_filterMap, List.mem_map]
    simp only [Option.mem_toList]
    constructor
    · rintro (h | ⟨a, h1, h2⟩)
      · exact .inl h
      · exact .inr (by subst h2; simpa using h1)
    · rintro (h | h)
      · exact .inl h
      · exact .inr ⟨!b, h, by simp⟩
  have agr : ∀ d, Agree G.color t ss d ↔ ∀ b ∈ colors, b = !d := by
    intro d
    constructor
    · rintro ⟨h1, h2⟩ b hb
      rcases (mem b).1 hb with ⟨s, hs, e⟩ | e
      · rcases h1 s hs with h | h <;> rw [e] at h <;> simp at h
        exact h
      · rcases h2 with h | h <;> rw [e] at h <;> simp at h
        rw [← h]
    · intro h
      refine ⟨fun s hs => ?_, ?_⟩
      · cases e : G.color s with
        | none => exact .inl rfl
        | some b => exact .inr (by rw [h b ((mem b).2 (.inl ⟨s, hs, e⟩))])
      · cases e : G.color t with
        | none => exact .inl rfl
        | some b => have := h (!b) ((mem (!b)).2 (.inr (by simpa using e))); simp at this; exact .inr (by rw [this])
  split
  · rename_i h
    obtain ⟨a, ha, b, hb, hab⟩ := h
    refine .inr ⟨?_, rfl⟩
    rintro ⟨d, hd⟩
    rw [agr] at hd
    exact hab ((hd a ha).trans (hd b hb).symm)
  · rename_i h
    have hall : ∀ a ∈ colors, ∀ b ∈ colors, a = b := by
      intro a ha b hb
      by_contra hn
      exact h ⟨a, ha, b, hb, hn⟩
    refine .inl ⟨defaultColor colors, ?_, ?_, ?_⟩
    · rw [agr]
      intro b hb
      cases colors with
      | nil => cases hb
      | cons c cs => simpa [defaultColor] using hall b hb c (by simp)
    · intro h1 h2
      cases hcs : colors with
      | nil => rfl
      | cons c cs =>
        exfalso
        rcases (mem c).1 (by rw [hcs]; simp) with ⟨s, hs, e⟩ | e
        · rw [h1 s hs] at e; cases e
        · rw [h2] at e; cases e
    · rw [foldl_setColor]; rfl

/-! ### All lines -/

/-- What is known after some lines. -/
structure KInv (n : Nat) (dir : Bool) (adj : List (Int × List Int)) (st : KthSt) : Prop where
  num : st.n = n
  directed : st.G.directed = dir
  nodes : st.G.nodes = intsTo n
  listed : ∀ e ∈ st.G.edges, Listed adj e.1 e.2
  edges : ∀ a b, st.G.hasEdge a b = true ↔ Listed adj a b ∨ (dir = false ∧ Listed adj b a)
  topo : st.topo = true ↔ ∀ a ∈ adj, ∀ s ∈ a.2, a.1 < s

theorem Listed.append {adj adj' : List (Int × List Int)} {s t : Int} : Listed (adj ++ adj') s t ↔ Listed adj s t ∨ Listed adj' s t := by
  unfold Listed
  constructor
  · rintro ⟨a, ha, h⟩
    rcases List.mem_append.1 ha with ha | ha
    · exact .inl ⟨a, ha, h⟩
    · exact .inr ⟨a, ha, h⟩
  · rintro (⟨a, ha, h⟩ | ⟨a, ha, h⟩)
    · exact ⟨a, by simp [ha], h⟩
    · exact ⟨a, by simp [ha], h⟩

theorem Listed.one {a : Int × List Int} {s t : Int} : Listed [a] s t ↔ s ∈ a.2 ∧ t = a.1 := by
  unfold Listed
  constructor
  · rintro ⟨b, hb, h1, h2⟩; rw [List.mem_singleton] at hb; subst hb; exact ⟨h2, h1.symm⟩
  · rintro ⟨h1, h2⟩; exact ⟨a, by simp, h2.symm, h1⟩

theorem KInv.start (n : Nat) (directed : Bool) : KInv n directed [] (kthStart directed n) := by
  refine ⟨rfl, rfl, rfl, ?_, ?_, ?_⟩
  · intro e he; cases he
  · intro a b; rw [hasEdge_iff]; simp [kthStart, Listed]
  · simp [kthStart]

theorem KInv.step {n : Nat} {directed bip : Bool} {adj : List (Int × List Int)} {st st' : KthSt} (h : KInv n directed adj st) {a : Int × List Int}
    (hr : (1 ≤ a.1 ∧ a.1 ≤ n) ∧ ∀ s ∈ a.2, 1 ≤ s ∧ s ≤ n) (e : adjStep bip st a.1 a.2 = pure st') : KInv n directed (adj ++ [a]) st' := by
  unfold adjStep at e
  obtain ⟨G, e1, e2⟩ := M.bind_eq_pure.1 e
  have e2 := ((M.pure_inj _ _).1 e2).symm
  have hG : G.directed = st.G.directed ∧ G.nodes = st.G.nodes ∧ G.edges = st.G.edges := by
    cases bip with
    | false => rw [← (M.pure_inj _ _).1 e1]; exact ⟨rfl, rfl, rfl⟩
    | true =>
      rw [if_pos rfl] at e1
      rcases recolor_spec st.G a.1 a.2 with ⟨d, _, _, h⟩ | ⟨_, h⟩
      · rw [h] at e1; rw [← (M.pure_inj _ _).1 e1]; exact ⟨rfl, rfl, rfl⟩
      · rw [h] at e1; simp at e1
  have hhas : ∀ x y, G.hasEdge x y = st.G.hasEdge x y := by intro x y; unfold Nx.hasEdge; rw [hG.1, hG.2.2]
  have ht : a.1 ∈ G.nodes := by rw [hG.2.1, h.nodes, mem_intsTo]; exact hr.1
  have hs : ∀ s ∈ a.2, s ∈ G.nodes := by intro s hs; rw [hG.2.1, h.nodes, mem_intsTo]; exact hr.2 s hs
  obtain ⟨s1, s2, s3⟩ := addEdges_spec a.1 a.2 G ht hs
  rw [e2]
  refine ⟨h.num, ?_, ?_, ?_, ?_, ?_⟩
  · exact s1.directed.trans (hG.1.trans h.directed)
  · exact s1.nodes.trans (hG.2.1.trans h.nodes)
  · intro e he
    rw [Listed.append, Listed.one]
    rcases s2 e he with h' | ⟨h1, h2⟩
    · rw [hG.2.2] at h'; exact .inl (h.listed e h')
    · exact .inr ⟨h2, h1⟩
  · intro x y
    show (a.2.foldl (fun G s => G.addEdge s a.1) G).hasEdge x y = true ↔ _
    rw [s3, hhas, h.edges, hG.1, h.directed]
    simp only [Listed.append, Listed.one]
    tauto
  · show (st.topo && a.2.all fun s => decide (a.1 < s)) = true ↔ _
    rw [Bool.and_eq_true, h.topo, List.all_eq_true]
    simp only [decide_eq_true_eq, List.mem_append, List.mem_singleton]
    constructor
    · rintro ⟨h1, h2⟩ b (hb | rfl)
      · exact h1 b hb
      · exact h2
    · intro hh; exact ⟨fun b hb => hh b (.inl hb), hh a (.inr rfl)⟩

/-- Every invariant of the lines. -/
theorem adjLoop_inv {bip : Bool} (P : List (Int × List Int) → KthSt → Prop) {n : Nat}
    (hstep : ∀ adj st a st', P adj st → ((1 ≤ a.1 ∧ a.1 ≤ (n : Int)) ∧ ∀ s ∈ a.2, 1 ≤ s ∧ s ≤ (n : Int)) → adjStep bip st a.1 a.2 = pure st' → P (adj ++ [a]) st') :
    ∀ (adj done : List (Int × List Int)) (st st' : KthSt), P done st → InRange n adj → adjLoop bip st adj = pure st' → P (done ++ adj) st' := by
  intro adj
  induction adj with
  | nil => intro done st st' h _ e; rw [← (M.pure_inj _ _).1 e]; simpa using h
  | cons a adj ih =>
    intro done st st' h hr e
    unfold adjLoop at e
    rw [List.foldlM_cons] at e
    obtain ⟨st1, e1, e2⟩ := M.bind_eq_pure.1 e
    have := ih (done ++ [a]) st1 st' (hstep _ _ _ _ h (hr a (by simp)) e1) (fun b hb => hr b (by simp [hb])) e2
    simpa using this

theorem adjLoop_total_false (st : KthSt) : ∀ adj, ∃ st', adjLoop false st adj = pure st' := by
  intro adj
  induction adj generalizing st with
  | nil => exact ⟨st, rfl⟩
  | cons a adj ih =>
    obtain ⟨st', h⟩ := ih ({ st with G := a.2.foldl (fun G s => G.addEdge s a.1) st.G, topo := st.topo && a.2.all fun s => decide (a.1 < s) })
    exact ⟨st', h⟩

theorem adjLoop_cases (bip : Bool) (st : KthSt) : ∀ adj, (∃ st', adjLoop bip st adj = pure st') ∨ adjLoop bip st adj = raise .valueError := by
  intro adj
  induction adj generalizing st with
  | nil => exact .inl ⟨st, rfl⟩
  | cons a adj ih =>
    unfold adjLoop
    rw [List.foldlM_cons]
    rcases adjStep_cases bip st a.1 a.2 with ⟨st1, h, _⟩ | h
    · rw [h, M.pure_bind]; exact ih st1
    · rw [h]; exact .inr rfl

theorem length_intsTo (n : Nat) : (intsTo n).length = n := by simp [intsTo, oneTo]

/-- A text that is no kthlist is refused. -/
theorem kthGraph_reject {ty : GType} {text : Str} (h : ¬ ∃ n adj, KthText text n adj) : kthGraph ty text = raise .valueError := by
  unfold kthGraph
  rcases kthLoop ty text with ⟨n, adj, hk, _⟩ | ⟨_, e | e⟩
  · exact absurd ⟨n, adj, hk⟩ h
  · dsimp only; rw [e]; rfl
  · dsimp only; rw [e, M.pure_bind]
    rw [if_pos]
    cases ty <;> simp

/-- The names of the graphs read. -/
theorem kthGraph_text {ty : GType} {text : Str} {n : Nat} {adj : List (Int × List Int)} (h : KthText text n adj) :
    kthGraph ty text = (adjLoop (decide (ty = .bipartite)) (kthStart ty.directed n) adj >>= fun st =>
      let G := { st.G with name := commentText (readlines text), topo := st.topo }
      let G := if ty = .bipartite then { G with color := fun v => if v ∈ G.nodes then some ((G.color v).getD true) else G.color v } else G
      if st.n ≠ (G.nodes.length : Int) then raise .valueError else pure G) := by
  unfold kthGraph
  rcases kthLoop ty text with ⟨n', adj', hk, e⟩ | ⟨h', _⟩
  · obtain ⟨rfl, rfl⟩ := KthText.unique hk h
    dsimp only; rw [e]
    simp only [decide_eq_true_eq]
  · exact absurd ⟨n, adj, h⟩ h'

/-- The graph read, before the checks. -/
theorem kthGraph_pure {ty : GType} (hty : ty ≠ .bipartite) {text : Str} {n : Nat} {adj : List (Int × List Int)} (h : KthText text n adj) :
    ∃ G, kthGraph ty text = pure G ∧ G.directed = ty.directed ∧ G.nodes = intsTo n ∧ (∀ e ∈ G.edges, Listed adj e.1 e.2) ∧
      (∀ a b, G.hasEdge a b = true ↔ Listed adj a b ∨ (ty.directed = false ∧ Listed adj b a)) ∧
      (G.topo = true ↔ ∀ a ∈ adj, ∀ s ∈ a.2, a.1 < s) ∧ G.name = commentText (readlines text) := by
  rw [kthGraph_text h]
  obtain ⟨st, e⟩ := adjLoop_total_false (kthStart ty.directed n) adj
  have hr : InRange n adj := by obtain ⟨_, _, _, _, _, _, hr⟩ := h; exact hr
  have inv := adjLoop_inv (KInv n ty.directed) (fun _ _ _ _ h => h.step) adj [] _ _ (KInv.start n ty.directed) hr e
  rw [show decide (ty = .bipartite) = false by simp [hty], e, M.pure_bind]
  dsimp only
  rw [if_neg hty, if_neg]
  · exact ⟨_, rfl, inv.directed, inv.nodes, inv.listed, inv.edges, inv.topo, rfl⟩
  · rw [inv.num, inv.nodes, length_intsTo]; simp

/-! ### C71 -/

/-- **C71, refused texts.** A text that is not a kthlist file (number of vertices, then lines `target : sources 0` with vertices in range, comments and
blank lines anywhere) is refused with `ValueError`, whatever the type asked for. -/
theorem C71_kth_reject (ty : GType) {text : Str} (h : ¬ ∃ n adj, KthText text n adj) : readKth ty text = raise .valueError := by
  unfold readKth; rw [kthGraph_reject h]; rfl

/-- **C71, simple graphs.** -/
theorem C71_kth_simple {text : Str} {n : Nat} {adj : List (Int × List Int)} (h : KthText text n adj) :
    ∃ G, readKth .simple text = pure G ∧ G.directed = false ∧ G.nodes = intsTo n ∧ G.Wf ∧
      ∀ u v, G.hasEdge u v = true ↔ Listed adj u v ∨ Listed adj v u := by
  obtain ⟨G, e, h1, h2, h3, h4, _, _⟩ := kthGraph_pure (ty := .simple) (by decide) h
  refine ⟨G, by unfold readKth; rw [e]; rfl, h1, h2, ⟨by rw [h2]; exact intsTo_nodup n, ?_⟩, fun u v => by rw [h4]; simp [GType.directed]⟩
  intro e he
  obtain ⟨a, ha, e1, e2⟩ := h3 e he
  obtain ⟨_, _, _, _, _, _, hr⟩ := h
  rw [h2, mem_intsTo, mem_intsTo, ← e1]
  exact ⟨(hr a ha).2 _ e2, (hr a ha).1⟩

/-- **C71, directed graphs.** -/
theorem C71_kth_digraph {text : Str} {n : Nat} {adj : List (Int × List Int)} (h : KthText text n adj) :
    ∃ G, readKth .digraph text = pure G ∧ G.directed = true ∧ G.nodes = intsTo n ∧ G.Wf ∧
      ∀ u v, G.hasEdge u v = true ↔ Listed adj u v := by
  obtain ⟨G, e, h1, h2, h3, h4, _, _⟩ := kthGraph_pure (ty := .digraph) (by decide) h
  refine ⟨G, by unfold readKth; rw [e]; rfl, h1, h2, ⟨by rw [h2]; exact intsTo_nodup n, ?_⟩, fun u v => by rw [h4]; simp [GType.directed]⟩
  intro e he
  obtain ⟨a, ha, e1, e2⟩ := h3 e he
  obtain ⟨_, _, _, _, _, _, hr⟩ := h
  rw [h2, mem_intsTo, mem_intsTo, ← e1]
  exact ⟨(hr a ha).2 _ e2, (hr a ha).1⟩

theorem noCycle_of_descending {E : Int → Int → Prop} (h : ∀ a b, E a b → b < a) : NoCycle E := by
  intro v hv
  have : ∀ {a b}, Relation.TransGen E a b → b < a := by
    intro a b hab
    induction hab with
    | single hh => exact h _ _ hh
    | tail _ hh ih => have := h _ _ hh; omega
  exact absurd (this hv) (lt_irrefl v)

/-- **C71, acyclic graphs.** A graph asked to be acyclic is accepted exactly when the edges listed make no cycle, and refused with `ValueError`
(never the `AssertionError` that the remembered order of the vertices could cause) otherwise. -/
theorem C71_kth_dag {text : Str} {n : Nat} {adj : List (Int × List Int)} (h : KthText text n adj) :
    (NoCycle (Listed adj) → ∃ G, readKth .dag text = pure G ∧ G.directed = true ∧ G.nodes = intsTo n ∧ G.Wf ∧
      ∀ u v, G.hasEdge u v = true ↔ Listed adj u v) ∧
    (¬ NoCycle (Listed adj) → readKth .dag text = raise .valueError) := by
  obtain ⟨G, e, h1, h2, h3, h4, h5, _⟩ := kthGraph_pure (ty := .dag) (by decide) h
  have h4 : ∀ u v, G.hasEdge u v = true ↔ Listed adj u v := fun u v => by rw [h4]; simp [GType.directed]
  have hm : ∀ u v, (u, v) ∈ G.edges ↔ Listed adj u v := by
    intro u v; rw [← h4, hasEdge_iff, h1]; simp [GType.directed]
  have hwf : G.Wf := by
    refine ⟨by rw [h2]; exact intsTo_nodup n, ?_⟩
    intro e he
    obtain ⟨a, ha, e1, e2⟩ := h3 e he
    obtain ⟨_, _, _, _, _, _, hr⟩ := h
    rw [h2, mem_intsTo, mem_intsTo, ← e1]
    exact ⟨(hr a ha).2 _ e2, (hr a ha).1⟩
  have hac : G.isAcyclic = true ↔ NoCycle (Listed adj) := by
    unfold Nx.isAcyclic
    rw [Digraph.isDag_iff ⟨hwf.nodup, hwf.ends⟩]
    unfold Digraph.Acyclic NoCycle
    simp only [hm]
  have htop : G.topo = true → NoCycle (Listed adj) := by
    intro ht
    rw [h5] at ht
    refine noCycle_of_descending ?_
    rintro s t ⟨a, ha, rfl, hs⟩
    exact ht a ha s hs
  constructor
  · intro hn
    refine ⟨G, ?_, h1, h2, hwf, h4⟩
    unfold readKth; rw [e]
    have := hac.2 hn
    show (isDagCheck G >>= _) = _
    unfold isDagCheck
    by_cases ht : G.topo = true <;> simp [ht, this]
  · intro hn
    unfold readKth; rw [e]
    have hf : G.isAcyclic = false := by rw [← Bool.not_eq_true, hac]; exact hn
    have ht : G.topo = false := by rw [← Bool.not_eq_true]; exact fun h => hn (htop h)
    show (isDagCheck G >>= _) = _
    unfold isDagCheck
    simp [ht, hf]

/-- The colors known after some lines: colors are only given to vertices of the lines; a line that does not list its own vertex has its vertex on one
side and the others on the other. -/
structure CInv (n : Nat) (adj : List (Int × List Int)) (st : KthSt) : Prop where
  k : KInv n false adj st
  cross : ∀ a ∈ adj, a.1 ∉ a.2 → ∃ d, st.G.color a.1 = some d ∧ ∀ s ∈ a.2, st.G.color s = some (!d)
  dom : ∀ v, (st.G.color v).isSome = true ↔ ∃ a ∈ adj, v = a.1 ∨ v ∈ a.2

/-- A line accepted. -/
theorem adjStep_true {st st' : KthSt} {t : Int} {ss : List Int} {nodes : List Int} (hn : st.G.nodes = nodes) (ht : t ∈ nodes) (hs : ∀ s ∈ ss, s ∈ nodes)
    (e : adjStep true st t ss = pure st') :
    ∃ d, Agree st.G.color t ss d ∧ ((∀ s ∈ ss, st.G.color s = none) → st.G.color t = none → d = false) ∧
      st'.G.color = fun x => if x ∈ ss then some (!d) else if x = t then some d else st.G.color x := by
  unfold adjStep at e
  rw [if_pos rfl] at e
  obtain ⟨G, e1, e2⟩ := M.bind_eq_pure.1 e
  have e2 := ((M.pure_inj _ _).1 e2).symm
  rcases recolor_spec st.G t ss with ⟨d, h1, h2, h⟩ | ⟨_, h⟩
  · rw [h] at e1
    have e1 := ((M.pure_inj _ _).1 e1).symm
    refine ⟨d, h1, h2, ?_⟩
    rw [e2]
    have hG : G.nodes = nodes := by rw [e1]; exact hn
    have := (addEdges_spec t ss G (by rw [hG]; exact ht) (by rw [hG]; exact hs)).1.color
    rw [this, e1]
  · rw [h] at e1; simp at e1

theorem CInv.start (n : Nat) : CInv n [] (kthStart false n) :=
  ⟨KInv.start n false, by simp, by simp [kthStart]⟩

theorem CInv.step {n : Nat} {adj : List (Int × List Int)} {st st' : KthSt} (h : CInv n adj st) {a : Int × List Int}
    (hr : (1 ≤ a.1 ∧ a.1 ≤ (n : Int)) ∧ ∀ s ∈ a.2, 1 ≤ s ∧ s ≤ (n : Int)) (e : adjStep true st a.1 a.2 = pure st') : CInv n (adj ++ [a]) st' := by
  obtain ⟨d, hd, _, hc⟩ := adjStep_true h.k.nodes (mem_intsTo.2 hr.1) (fun s hs => mem_intsTo.2 (hr.2 s hs)) e
  have keep : ∀ v b, st.G.color v = some b → st'.G.color v = some b := by
    intro v b hv
    rw [hc]
    dsimp only
    split
    · rename_i hv'
      rcases hd.1 v hv' with h' | h'
      · rw [hv] at h'; cases h'
      · rw [← h']; exact hv
    · split
      · rename_i hv'
        subst hv'
        rcases hd.2 with h' | h'
        · rw [hv] at h'; cases h'
        · rw [← h']; exact hv
      · exact hv
  refine ⟨h.k.step hr e, ?_, ?_⟩
  · intro b hb hself
    rcases List.mem_append.1 hb with hb | hb
    · obtain ⟨d', h1, h2⟩ := h.cross b hb hself
      exact ⟨d', keep _ _ h1, fun s hs => keep _ _ (h2 s hs)⟩
    · rw [List.mem_singleton] at hb
      subst hb
      refine ⟨d, by rw [hc]; simp [hself], fun s hs => by rw [hc]; simp [hs]⟩
  · intro v
    rw [hc]
    simp only [List.mem_append, List.mem_singleton]
    by_cases h1 : v ∈ a.2
    · simp only [h1, if_pos]
      exact ⟨fun _ => ⟨a, .inr rfl, .inr h1⟩, fun _ => rfl⟩
    · by_cases h2 : v = a.1
      · rw [if_neg h1, if_pos h2]
        exact ⟨fun _ => ⟨a, .inr rfl, .inl h2⟩, fun _ => rfl⟩
      · rw [if_neg h1, if_neg h2, h.dom]
        constructor
        · rintro ⟨b, hb, hh⟩; exact ⟨b, .inl hb, hh⟩
        · rintro ⟨b, hb | rfl, hh⟩
          · exact ⟨b, hb, hh⟩
          · exact absurd hh (by tauto)

/-- The reader with `bipartite`. -/
theorem readKth_bipartite {text : Str} {n : Nat} {adj : List (Int × List Int)} (h : KthText text n adj) :
    (adjLoop true (kthStart false n) adj = raise .valueError ∧ readKth .bipartite text = raise .valueError) ∨
    ∃ st, adjLoop true (kthStart false n) adj = pure st ∧ CInv n adj st ∧ readKth .bipartite text =
      pure { st.G with name := commentText (readlines text), topo := st.topo, color := fun v => if v ∈ st.G.nodes then some ((st.G.color v).getD true) else st.G.color v } := by
  have hr : InRange n adj := by obtain ⟨_, _, _, _, _, _, hr⟩ := h; exact hr
  unfold readKth
  rw [kthGraph_text h]
  rw [show decide ((GType.bipartite) = .bipartite) = true by decide, show GType.directed .bipartite = false from rfl]
  rcases adjLoop_cases true (kthStart false n) adj with ⟨st, e⟩ | e
  · have inv := adjLoop_inv (CInv n) (fun _ _ _ _ h => h.step) adj [] _ _ (CInv.start n) hr e
    rw [List.nil_append] at inv
    refine .inr ⟨st, e, inv, ?_⟩
    rw [e, M.pure_bind]
    dsimp only
    rw [if_pos rfl, if_neg]
    · rw [M.pure_bind]
      dsimp only
      rw [if_pos]
      intro v hv
      rw [if_pos hv]; rfl
    · dsimp only
      rw [inv.k.num, inv.k.nodes, length_intsTo]; simp
  · exact .inl ⟨e, by rw [e]; rfl⟩

/-- **C71, bipartite graphs.** Reading ends with `ValueError` or with the graph listed, every vertex on one of the sides, and every edge of a line that
does not list its own vertex going from one side to the other. -/
theorem C71_kth_bipartite {text : Str} {n : Nat} {adj : List (Int × List Int)} (h : KthText text n adj) :
    readKth .bipartite text = raise .valueError ∨
    ∃ G, readKth .bipartite text = pure G ∧ G.directed = false ∧ G.nodes = intsTo n ∧
      (∀ u v, G.hasEdge u v = true ↔ Listed adj u v ∨ Listed adj v u) ∧ (∀ v ∈ G.nodes, (G.color v).isSome = true) ∧
      ∀ a ∈ adj, a.1 ∉ a.2 → ∀ s ∈ a.2, G.color s ≠ G.color a.1 := by
  have hr : InRange n adj := by obtain ⟨_, _, _, _, _, _, hr⟩ := h; exact hr
  rcases readKth_bipartite h with ⟨_, e⟩ | ⟨st, _, inv, e⟩
  · exact .inl e
  · refine .inr ⟨_, e, inv.k.directed, inv.k.nodes, fun u v => ?_, ?_, ?_⟩
    · show st.G.hasEdge u v = true ↔ _
      rw [inv.k.edges]; simp
    · intro v hv; dsimp only at hv ⊢; rw [if_pos hv]; rfl
    · intro a ha hself s hs
      obtain ⟨d, h1, h2⟩ := inv.cross a ha hself
      dsimp only
      rw [h1, h2 s hs, if_pos (by rw [inv.k.nodes]; exact mem_intsTo.2 ((hr a ha).2 s hs)), if_pos (by rw [inv.k.nodes]; exact mem_intsTo.2 (hr a ha).1)]
      simp

/-- Targets on the left, sources on the right, after some lines. -/
def SInv (n : Nat) (all adj : List (Int × List Int)) (st : KthSt) : Prop :=
  st.G.nodes = intsTo n ∧ ∀ v, (st.G.color v = none ∨ (∃ a ∈ all, v = a.1) ∧ st.G.color v = some false ∨ (∃ a ∈ all, v ∈ a.2) ∧ st.G.color v = some true) ∧
    ((∃ a ∈ adj, v = a.1) → st.G.color v = some false)

/-- **C71, bipartite graphs in the documented form.** When no vertex is both a target and a source, the file is accepted, the targets are the left
side and all other vertices the right side. -/
theorem C71_kth_bipartite_sides {text : Str} {n : Nat} {adj : List (Int × List Int)} (h : KthText text n adj)
    (hs : ∀ a ∈ adj, ∀ b ∈ adj, a.1 ∉ b.2) :
    ∃ G, readKth .bipartite text = pure G ∧ ∀ v ∈ G.nodes, (G.color v = some false ↔ ∃ a ∈ adj, v = a.1) := by
  have hr : InRange n adj := by obtain ⟨_, _, _, _, _, _, hr⟩ := h; exact hr
  have hagree : ∀ done st, SInv n adj done st → ∀ a ∈ adj, Agree st.G.color a.1 a.2 false := by
    intro done st hst a ha
    refine ⟨fun s hss => ?_, ?_⟩
    · rcases (hst.2 s).1 with h' | ⟨⟨b, hb, e⟩, h'⟩ | ⟨_, h'⟩
      · exact .inl h'
      · exact absurd (e ▸ hss) (hs b hb a ha)
      · exact .inr h'
    · rcases (hst.2 a.1).1 with h' | ⟨_, h'⟩ | ⟨⟨b, hb, e⟩, h'⟩
      · exact .inl h'
      · exact .inr h'
      · exact absurd e (hs a ha b hb)
  have hstep : ∀ done st a, SInv n adj done st → a ∈ adj → ∃ st', adjStep true st a.1 a.2 = pure st' ∧ SInv n adj (done ++ [a]) st' := by
    intro done st a hst ha
    have hra := hr a ha
    have htn : a.1 ∈ st.G.nodes := by rw [hst.1]; exact mem_intsTo.2 hra.1
    have hsn : ∀ s ∈ a.2, s ∈ st.G.nodes := by intro s hss; rw [hst.1]; exact mem_intsTo.2 (hra.2 s hss)
    rcases adjStep_cases true st a.1 a.2 with ⟨st', e, _⟩ | e
    · refine ⟨st', e, ?_, ?_⟩
      · obtain ⟨G, e1, e2⟩ := M.bind_eq_pure.1 e
        have e2 := ((M.pure_inj _ _).1 e2).symm
        rw [if_pos rfl] at e1
        have hG : G.nodes = st.G.nodes := by
          rcases recolor_spec st.G a.1 a.2 with ⟨d, _, _, h⟩ | ⟨_, h⟩
          · rw [h] at e1; rw [← (M.pure_inj _ _).1 e1]
          · rw [h] at e1; simp at e1
        rw [e2]
        exact ((addEdges_spec a.1 a.2 G (by rw [hG]; exact htn) (by rw [hG]; exact hsn)).1.nodes).trans (hG.trans hst.1)
      · obtain ⟨d, hd, hd0, hc⟩ := adjStep_true hst.1 (hst.1 ▸ htn) (fun s hss => hst.1 ▸ hsn s hss) e
        have hf := hagree done st hst a ha
        have hdf : d = false := by
          by_cases hall : (∀ s ∈ a.2, st.G.color s = none) ∧ st.G.color a.1 = none
          · exact hd0 hall.1 hall.2
          · cases d with
            | false => rfl
            | true =>
              exfalso
              apply hall
              refine ⟨fun s hss => ?_, ?_⟩
              · rcases hd.1 s hss with h1 | h1
                · exact h1
                · rcases hf.1 s hss with h2 | h2
                  · exact h2
                  · rw [h1] at h2; simp at h2
              · rcases hd.2 with h1 | h1
                · exact h1
                · rcases hf.2 with h2 | h2
                  · exact h2
                  · rw [h1] at h2; simp at h2
        subst hdf
        intro v
        rw [hc]
        dsimp only
        by_cases h1 : v ∈ a.2
        · rw [if_pos h1]
          refine ⟨.inr (.inr ⟨⟨a, ha, h1⟩, rfl⟩), ?_⟩
          rintro ⟨b, hb, rfl⟩
          rcases List.mem_append.1 hb with hb | hb
          · have := (hst.2 b.1).2 ⟨b, hb, rfl⟩
            rcases hf.1 _ h1 with h2 | h2 <;> rw [this] at h2 <;> simp at h2
          · rw [List.mem_singleton] at hb; subst hb; exact absurd h1 (hs b ha b ha)
        · rw [if_neg h1]
          by_cases h2 : v = a.1
          · rw [if_pos h2]; exact ⟨.inr (.inl ⟨⟨a, ha, h2⟩, rfl⟩), fun _ => rfl⟩
          · rw [if_neg h2]
            refine ⟨(hst.2 v).1, ?_⟩
            rintro ⟨b, hb, rfl⟩
            rcases List.mem_append.1 hb with hb | hb
            · exact (hst.2 b.1).2 ⟨b, hb, rfl⟩
            · rw [List.mem_singleton] at hb; subst hb; exact absurd rfl h2
    · exfalso
      unfold adjStep at e
      rw [if_pos rfl] at e
      rcases recolor_spec st.G a.1 a.2 with ⟨d, _, _, h⟩ | ⟨h, _⟩
      · rw [h, M.pure_bind] at e; simp at e
      · exact h ⟨false, hagree done st hst a ha⟩
  have hloop : ∀ (rest done : List (Int × List Int)) (st : KthSt), (∀ a ∈ rest, a ∈ adj) → SInv n adj done st →
      ∃ st', adjLoop true st rest = pure st' ∧ SInv n adj (done ++ rest) st' := by
    intro rest
    induction rest with
    | nil => intro done st _ h; exact ⟨st, rfl, by simpa using h⟩
    | cons a rest ih =>
      intro done st hm hst
      obtain ⟨st1, e1, i1⟩ := hstep done st a hst (hm a (by simp))
      obtain ⟨st2, e2, i2⟩ := ih (done ++ [a]) st1 (fun b hb => hm b (by simp [hb])) i1
      refine ⟨st2, ?_, by simpa using i2⟩
      unfold adjLoop at e2 ⊢
      rw [List.foldlM_cons, e1, M.pure_bind]; exact e2
  obtain ⟨st, e, inv⟩ := hloop adj [] (kthStart false n) (fun _ h => h) ⟨rfl, fun v => ⟨.inl rfl, by simp⟩⟩
  rw [List.nil_append] at inv
  rcases readKth_bipartite h with ⟨e', _⟩ | ⟨st', e', cinv, er⟩
  · rw [e] at e'; simp at e'
  · rw [e] at e'
    have := (M.pure_inj _ _).1 e'
    subst this
    refine ⟨_, er, ?_⟩
    intro v hv
    dsimp only at hv ⊢
    rw [if_pos hv]
    constructor
    · intro hc
      rcases (inv.2 v).1 with h' | ⟨h', _⟩ | ⟨_, h'⟩
      · rw [h'] at hc; simp at hc
      · exact h'
      · rw [h'] at hc; simp at hc
    · intro hv'; rw [(inv.2 v).2 hv']; rfl

/-! ### Cases -/

/-- A concrete file meets the hypotheses: a comment, three vertices, two lines. -/
example : KthText "c a graph\n3\n\n1 : 2 3 0\n3 : 2 0\n".toList 3 [(1, [2, 3]), (3, [2])] := by
  refine ⟨"3".toList, ["1 : 2 3 0".toList, "3 : 2 0".toList], by decide, by decide, by decide, ?_, by decide⟩
  refine .cons ⟨"1 ".toList, " 2 3 0".toList, by decide, by decide, by decide, by decide, by decide⟩ (.cons ?_ .nil)
  exact ⟨"3 ".toList, " 2 0".toList, by decide, by decide, by decide, by decide, by decide⟩

/-- **C71, an edge inside one side.** The file is accepted as a bipartite graph although its edge 1-2 joins two vertices of the same side. -/
theorem C71_same_side : ∃ G, readKth .bipartite "2\n1 : 1 2 0\n".toList = pure G ∧ G.hasEdge 1 2 = true ∧ G.color 1 = G.color 2 :=
  ⟨_, rfl, by decide, by decide⟩

/-- **C71, a bipartite graph refused.** The path 2-1-3-4 is bipartite, but the file below is refused. -/
theorem C71_bipartite_refused : readKth .bipartite "4\n1 : 2 0\n3 : 4 0\n1 : 3 0\n".toList = raise .valueError ∧
    ∃ side : Int → Bool, ∀ s t, Listed [(1, [2]), (3, [4]), (1, [3])] s t → side s ≠ side t := by
  refine ⟨rfl, fun v => decide (v = 1 ∨ v = 4), ?_⟩
  rintro s t ⟨a, ha, rfl, hs⟩
  simp only [List.mem_cons, List.not_mem_nil, or_false] at ha
  rcases ha with rfl | rfl | rfl <;> simp only [List.mem_cons, List.not_mem_nil, or_false] at hs <;> subst hs <;> decide

/-- **C71, the mark "topologically sorted".** A file listing the vertices from the sources to the sinks is not marked, its reverse is. -/
theorem C71_topological_mark : (∃ G, readKth .dag "2\n1 : 0\n2 : 1 0\n".toList = pure G ∧ G.topo = false) ∧
    ∃ G, readKth .dag "2\n1 : 2 0\n2 : 0\n".toList = pure G ∧ G.topo = true ∧ G.nodes = [1, 2] ∧ G.hasEdge 2 1 = true :=
  ⟨⟨_, rfl, by decide⟩, _, rfl, by decide, by decide, by decide⟩

end NDP.Cnfgen
