import Verif.Cnfgen.GraphKth
import Verif.Proofs.GenText
/-
  C72: graphs written as kthlist files and read again.
-/
namespace NDP.Cnfgen
open NDP

theorem splitOn_append_sep' (sep : Char) (a b : Str) : splitOn sep (a ++ sep :: b) = splitOn sep a ++ splitOn sep b := by
  induction a with
  | nil => simp [splitOn]
  | cons c a ih =>
    by_cases h : c = sep
    · simp [splitOn, h, ih]
    · cases e : splitOn sep a with
      | nil => exact absurd e (splitOn_ne_nil _ _)
      | cons w ws => simp [splitOn, h, ih, e]

theorem kthLine_words (ns : List Nat) : splitWS (joinWith [' '] (ns.map natStr) ++ " 0".toList) = (ns ++ [0]).map natStr := by
  induction ns with
  | nil => decide
  | cons a ns ih =>
    cases ns with
    | nil =>
      show splitWS (natStr a ++ ' ' :: "0".toList) = _
      rw [Gen.splitWS_word_sep (natStr_ne_nil a) (natStr_no_space a)]; rfl
    | cons b ns =>
      have : joinWith [' '] ((a :: b :: ns).map natStr) ++ " 0".toList = natStr a ++ ' ' :: (joinWith [' '] ((b :: ns).map natStr) ++ " 0".toList) := by
        simp [joinWith]
      rw [this, Gen.splitWS_word_sep (natStr_ne_nil a) (natStr_no_space a), ih]; rfl

/-- The line of a vertex, without the line break. -/
def kthLineBody (i : Nat) (ns : List Nat) : Str := natStr i ++ " : ".toList ++ joinWith [' '] (ns.map natStr) ++ " 0".toList

theorem kthLineText_eq (i : Nat) (ns : List Nat) : kthLineText i ns = kthLineBody i ns ++ ['\n'] := by
  unfold kthLineText kthLineBody
  rw [List.append_assoc _ " 0".toList]; rfl

theorem not_mem_joinWith {c : Char} (hc : c ≠ ' ') : ∀ {ws : List Str}, (∀ w ∈ ws, c ∉ w) → c ∉ joinWith [' '] ws
  | [], _ => by simp [joinWith]
  | [w], h => by simpa [joinWith] using h w (by simp)
  | w :: v :: ws, h => by
    have := not_mem_joinWith hc (ws := v :: ws) (fun w hw => h w (by simp [hw]))
    have h1 := h w (by simp)
    simp only [joinWith, List.mem_append, List.mem_singleton, not_or]
    exact ⟨⟨h1, hc⟩, this⟩

theorem nl_kthLineBody (i : Nat) (ns : List Nat) : '\n' ∉ kthLineBody i ns := by
  unfold kthLineBody
  simp only [List.mem_append, not_or]
  refine ⟨⟨⟨Gen.nl_natStr i, by decide⟩, not_mem_joinWith (by decide) ?_⟩, by decide⟩
  intro w hw
  obtain ⟨k, _, rfl⟩ := List.mem_map.1 hw
  exact Gen.nl_natStr k

theorem adjLine_body (i : Nat) (ns : List Nat) : AdjLine (kthLineBody i ns) ((i : Int), ns.map Int.ofNat) := by
  refine ⟨natStr i ++ " ".toList, ' ' :: (joinWith [' '] (ns.map natStr) ++ " 0".toList), ?_, ?_, ?_, ?_, ?_⟩
  · simp [kthLineBody]
  · simp only [List.mem_append, not_or]; exact ⟨not_mem_natStr (by decide), by decide⟩
  · simp only [List.mem_cons, List.mem_append, not_or]
    refine ⟨by decide, not_mem_joinWith (by decide) ?_, by decide⟩
    intro w hw
    obtain ⟨k, _, rfl⟩ := List.mem_map.1 hw
    exact not_mem_natStr (by decide)
  · rw [parseInt_of_strip (strip_append_space (natStr i) " ".toList (by decide))]
    exact parseInt_natStr i
  · rw [splitWS_cons_space (by decide), kthLine_words]
    have : ∀ l : List Nat, mapOpt parseInt (l.map natStr) = some (l.map Int.ofNat) := by
      intro l
      rw [mapOpt_map]
      exact mapOpt_some (fun k _ => parseInt_natStr k)
    rw [this]; simp

theorem data_natStr (n : Nat) (rest : Str) : startsWith 'c' (natStr n ++ rest) = false ∧ strip (natStr n ++ rest) ≠ [] := by
  constructor
  · cases h : natStr n with
    | nil => exact absurd h (natStr_ne_nil n)
    | cons d ds =>
      have : 'c' ∉ natStr n := not_mem_natStr (by decide)
      rw [h] at this
      simp only [List.mem_cons, not_or] at this
      simp [startsWith, Ne.symm this.1]
  · intro hs
    have h0 := splitWS_strip (natStr n ++ rest)
    rw [hs] at h0
    cases h : natStr n with
    | nil => exact natStr_ne_nil n h
    | cons d ds =>
      obtain ⟨a, b, ha, hb, e, _⟩ := strip_decomp (natStr n ++ rest)
      rw [hs, List.append_nil] at e
      have : d ∈ a ++ b := by rw [← e, h]; simp
      have h1 := natStr_no_space n d (by rw [h]; simp)
      rcases List.mem_append.1 this with h2 | h2
      · rw [ha d h2] at h1; cases h1
      · rw [hb d h2] at h1; cases h1

/-- The lines of the name after the first would be read as comments or skipped. -/
def NameOK (name : Str) : Prop := ∀ l ∈ (splitOn '\n' name).tail, startsWith 'c' l = true ∨ strip l = []

section
variable {V : Type} [DecidableEq V]

/-- The number under which a vertex is written. -/
def numOf (ord : List V) (v : V) : Nat := ord.idxOf v + 1

/-- The lines written. -/
def kthAdj (G : Nx V) (ord vs : List V) : List (Int × List Int) :=
  vs.map fun v => ((numOf ord v : Int), (isort (fun a b => decide (a < b)) ((G.preds v).map (numOf ord))).map Int.ofNat)

theorem splitOn_cc (name : Str) : ∃ w ws, splitOn '\n' ("c ".toList ++ name) = ("c ".toList ++ w) :: ws ∧ ws = (splitOn '\n' name).tail := by
  cases e : splitOn '\n' name with
  | nil => exact absurd e (splitOn_ne_nil _ _)
  | cons w ws => exact ⟨w, ws, by simp [splitOn, e], rfl⟩

theorem split_writeKth (G : Nx V) (ord left : List V) (bip : Bool) :
    splitOn '\n' (writeKth G ord left bip) = splitOn '\n' ("c ".toList ++ G.name) ++ natStr G.nodes.length ::
      ((if bip then left else ord).map fun v => kthLineBody (numOf ord v) (isort (fun a b => decide (a < b)) ((G.preds v).map (numOf ord)))) ++ [[], []] := by
  unfold writeKth
  rw [List.append_assoc, List.append_assoc, List.append_assoc, List.singleton_append, splitOn_append_sep', List.append_assoc (natStr _), List.singleton_append,
    splitOn_append_sep _ _ _ (Gen.nl_natStr _), List.append_assoc, List.cons_append]
  congr 2
  generalize (if bip then left else ord) = vs
  induction vs with
  | nil => rfl
  | cons v vs ih =>
    rw [List.flatMap_cons, List.map_cons, List.append_assoc, kthLineText_eq, List.append_assoc, List.singleton_append,
      splitOn_append_sep _ _ _ (nl_kthLineBody _ _), ih]
    rfl

theorem dataLines_writeKth (G : Nx V) (ord left : List V) (bip : Bool) (hn : NameOK G.name) :
    dataLines (writeKth G ord left bip) = natStr G.nodes.length ::
      ((if bip then left else ord).map fun v => kthLineBody (numOf ord v) (isort (fun a b => decide (a < b)) ((G.preds v).map (numOf ord)))) := by
  unfold dataLines
  rw [split_writeKth]
  obtain ⟨w, ws, e, hws⟩ := splitOn_cc G.name
  rw [e, List.filter_append, List.filter_append, List.filter_cons, if_neg (by simp [startsWith])]
  have h1 : ws.filter (fun l => !startsWith 'c' l && decide (strip l ≠ [])) = [] := by
    rw [List.filter_eq_nil_iff]
    intro l hl
    rw [hws] at hl
    rcases hn l hl with h | h <;> simp [h]
  rw [h1, List.nil_append, show List.filter (fun l => !startsWith 'c' l && decide (strip l ≠ [])) [[], []] = [] by decide, List.append_nil]
  rw [List.filter_eq_self]
  intro l hl
  have : startsWith 'c' l = false ∧ strip l ≠ [] := by
    rcases List.mem_cons.1 hl with rfl | hl
    · have := data_natStr G.nodes.length []
      rwa [List.append_nil] at this
    · obtain ⟨v, _, rfl⟩ := List.mem_map.1 hl
      unfold kthLineBody
      rw [List.append_assoc, List.append_assoc]
      exact data_natStr _ _
  simp [this]

theorem mem_preds' {G : Nx V} (hw : G.Wf) {w v : V} : w ∈ G.preds v ↔ G.hasEdge w v = true := by
  unfold Nx.preds
  rw [List.mem_filter]
  refine ⟨fun h => h.2, fun h => ⟨?_, h⟩⟩
  rcases hasEdge_iff.1 h with h | ⟨_, h⟩
  · exact (hw.ends _ h).1
  · exact (hw.ends _ h).2

theorem numOf_range {ord : List V} {v : V} (h : v ∈ ord) : 1 ≤ numOf ord v ∧ numOf ord v ≤ ord.length :=
  ⟨by unfold numOf; omega, List.idxOf_lt_length_iff.2 h⟩

theorem numOf_inj {ord : List V} {v w : V} (hv : v ∈ ord) (e : numOf ord v = numOf ord w) : v = w := by
  unfold numOf at e
  exact (List.idxOf_inj hv).1 (by omega)

theorem kthText_write (G : Nx V) (hw : G.Wf) {ord : List V} (hord : ord.Perm G.nodes) {left : List V} {bip : Bool}
    (hl : ∀ v ∈ left, v ∈ G.nodes) (hn : NameOK G.name) :
    KthText (writeKth G ord left bip) G.nodes.length (kthAdj G ord (if bip then left else ord)) := by
  refine ⟨_, _, dataLines_writeKth G ord left bip hn, not_mem_natStr (by decide), parseInt_natStr _, ?_, ?_⟩
  · unfold kthAdj
    rw [List.forall₂_map_left_iff, List.forall₂_map_right_iff]
    exact List.forall₂_same.2 fun v _ => adjLine_body _ _
  · intro a ha
    obtain ⟨v, hv, rfl⟩ := List.mem_map.1 ha
    have hvn : v ∈ ord := by
      cases bip with
      | false => exact hv
      | true => exact hord.mem_iff.2 (hl v hv)
    have hlen := hord.length_eq
    refine ⟨?_, ?_⟩
    · have := numOf_range hvn
      dsimp only
      omega
    · intro s hs
      obtain ⟨k, hk, rfl⟩ := List.mem_map.1 hs
      rw [mem_isort] at hk
      obtain ⟨w, hwp, rfl⟩ := List.mem_map.1 hk
      have := numOf_range (hord.mem_iff.2 (List.mem_filter.1 hwp).1)
      show 1 ≤ ((numOf ord w : Nat) : Int) ∧ ((numOf ord w : Nat) : Int) ≤ _
      omega

/-- What the lines written say. -/
theorem listed_kthAdj {G : Nx V} (hw : G.Wf) {ord : List V} (hord : ord.Perm G.nodes) {vs : List V} (hvs : ∀ v ∈ vs, v ∈ G.nodes) {u v : V}
    (hu : u ∈ G.nodes) (hv : v ∈ G.nodes) : Listed (kthAdj G ord vs) (numOf ord u) (numOf ord v) ↔ v ∈ vs ∧ G.hasEdge u v = true := by
  unfold Listed kthAdj
  constructor
  · rintro ⟨a, ha, h1, h2⟩
    obtain ⟨x, hx, rfl⟩ := List.mem_map.1 ha
    dsimp only at h1 h2
    obtain ⟨k, hk, e⟩ := List.mem_map.1 h2
    rw [mem_isort] at hk
    obtain ⟨w, hwp, rfl⟩ := List.mem_map.1 hk
    have e1 : x = v := numOf_inj (hord.mem_iff.2 (hvs x hx)) (by exact_mod_cast h1)
    have e2 : w = u := numOf_inj (hord.mem_iff.2 (List.mem_filter.1 hwp).1) (by exact Int.ofNat.inj e)
    subst e1 e2
    exact ⟨hx, (mem_preds' hw).1 hwp⟩
  · rintro ⟨hx, he⟩
    refine ⟨_, List.mem_map.2 ⟨v, hx, rfl⟩, rfl, ?_⟩
    refine List.mem_map.2 ⟨numOf ord u, ?_, rfl⟩
    rw [mem_isort]
    exact List.mem_map.2 ⟨u, (mem_preds' hw).2 he, rfl⟩

theorem listed_exists {G : Nx V} {ord : List V} {vs : List V} {s t : Int} (h : Listed (kthAdj G ord vs) s t) :
    ∃ u ∈ G.nodes, ∃ v ∈ vs, s = numOf ord u ∧ t = numOf ord v := by
  obtain ⟨a, ha, h1, h2⟩ := h
  obtain ⟨x, hx, rfl⟩ := List.mem_map.1 ha
  dsimp only at h1 h2
  obtain ⟨k, hk, e⟩ := List.mem_map.1 h2
  rw [mem_isort] at hk
  obtain ⟨w, hwp, rfl⟩ := List.mem_map.1 hk
  exact ⟨w, (List.mem_filter.1 hwp).1, x, hx, e.symm, h1.symm⟩

/-! ### C72 -/

theorem hasEdge_symm {G : Nx V} (hd : G.directed = false) (u v : V) : G.hasEdge u v = G.hasEdge v u := by
  unfold Nx.hasEdge; rw [hd]; simp [Bool.or_comm]

/-- **C72, simple graphs.** A simple graph written as kthlist and read again is the same graph on the numbers of its vertices. -/
theorem C72_kth_simple (G : Nx V) (hw : G.Wf) (hd : G.directed = false) {ord left : List V} (hord : ord.Perm G.nodes) (hn : NameOK G.name) :
    ∃ H, readKth .simple (writeKth G ord left false) = pure H ∧ H.directed = false ∧ H.nodes = intsTo G.nodes.length ∧
      ∀ u ∈ G.nodes, ∀ v ∈ G.nodes, H.hasEdge (numOf ord u) (numOf ord v) = G.hasEdge u v := by
  have ht := kthText_write G hw hord (left := []) (bip := false) (by simp) hn
  obtain ⟨H, e, h1, h2, _, h4⟩ := C71_kth_simple ht
  refine ⟨H, e, h1, h2, fun u hu v hv => ?_⟩
  have hv' : ∀ v ∈ ord, v ∈ G.nodes := fun v h => hord.mem_iff.1 h
  rw [Bool.eq_iff_iff, h4, if_neg (by simp), listed_kthAdj hw hord hv' hu hv, listed_kthAdj hw hord hv' hv hu, hord.mem_iff, hord.mem_iff, hasEdge_symm hd v u]
  tauto

/-- **C72, directed graphs.** -/
theorem C72_kth_digraph (G : Nx V) (hw : G.Wf) {ord left : List V} (hord : ord.Perm G.nodes) (hn : NameOK G.name) :
    ∃ H, readKth .digraph (writeKth G ord left false) = pure H ∧ H.directed = true ∧ H.nodes = intsTo G.nodes.length ∧
      ∀ u ∈ G.nodes, ∀ v ∈ G.nodes, H.hasEdge (numOf ord u) (numOf ord v) = G.hasEdge u v := by
  have ht := kthText_write G hw hord (left := []) (bip := false) (by simp) hn
  obtain ⟨H, e, h1, h2, _, h4⟩ := C71_kth_digraph ht
  refine ⟨H, e, h1, h2, fun u hu v hv => ?_⟩
  have hv' : ∀ v ∈ ord, v ∈ G.nodes := fun v h => hord.mem_iff.1 h
  rw [Bool.eq_iff_iff, h4, if_neg (by simp), listed_kthAdj hw hord hv' hu hv, hord.mem_iff]
  tauto

/-- Cycles of the numbers are cycles of the graph. -/
theorem noCycle_kthAdj {G : Nx V} (hw : G.Wf) {ord : List V} (hord : ord.Perm G.nodes) :
    NoCycle (Listed (kthAdj G ord ord)) ↔ NoCycle (fun u v => G.hasEdge u v = true) := by
  have hv' : ∀ v ∈ ord, v ∈ G.nodes := fun v h => hord.mem_iff.1 h
  have ends : ∀ u v, G.hasEdge u v = true → u ∈ G.nodes ∧ v ∈ G.nodes := by
    intro u v h
    rcases hasEdge_iff.1 h with h | ⟨_, h⟩
    · exact hw.ends _ h
    · exact (hw.ends _ h).symm
  constructor
  · intro h v hv
    have : ∀ {a b}, Relation.TransGen (fun u v => G.hasEdge u v = true) a b → Relation.TransGen (Listed (kthAdj G ord ord)) (numOf ord a) (numOf ord b) := by
      intro a b hab
      induction hab with
      | single hh =>
        obtain ⟨h1, h2⟩ := ends _ _ hh
        exact .single ((listed_kthAdj hw hord hv' h1 h2).2 ⟨hord.mem_iff.2 h2, hh⟩)
      | tail _ hh ih =>
        obtain ⟨h1, h2⟩ := ends _ _ hh
        exact .tail ih ((listed_kthAdj hw hord hv' h1 h2).2 ⟨hord.mem_iff.2 h2, hh⟩)
    exact h _ (this hv)
  · intro h x hx
    have : ∀ {a b}, Relation.TransGen (Listed (kthAdj G ord ord)) a b → ∃ u ∈ G.nodes, ∃ v ∈ G.nodes, a = numOf ord u ∧ b = numOf ord v ∧
        Relation.TransGen (fun u v => G.hasEdge u v = true) u v := by
      intro a b hab
      induction hab with
      | single hh =>
        obtain ⟨u, hu, v, hv, rfl, rfl⟩ := listed_exists hh
        exact ⟨u, hu, v, hv' v hv, rfl, rfl, .single ((listed_kthAdj hw hord hv' hu (hv' v hv)).1 hh).2⟩
      | tail _ hh ih =>
        obtain ⟨u, hu, v, hv, rfl, e, ht⟩ := ih
        obtain ⟨u', hu', w, hw', e', rfl⟩ := listed_exists hh
        rw [e'] at e hh
        have := numOf_inj (hord.mem_iff.2 hu') (by exact_mod_cast e)
        subst this
        exact ⟨u, hu, w, hv' w hw', rfl, rfl, .tail ht ((listed_kthAdj hw hord hv' hv (hv' w hw')).1 hh).2⟩
    obtain ⟨u, hu, v, hv, e1, e2, ht⟩ := this hx
    rw [e1] at e2
    have := numOf_inj (hord.mem_iff.2 hu) (by exact_mod_cast e2)
    subst this
    exact h _ ht

/-- **C72, acyclic graphs.** The file of an acyclic graph is accepted as such and gives the same graph; that of a graph with a cycle is refused. -/
theorem C72_kth_dag (G : Nx V) (hw : G.Wf) {ord left : List V} (hord : ord.Perm G.nodes) (hn : NameOK G.name) :
    (NoCycle (fun u v => G.hasEdge u v = true) → ∃ H, readKth .dag (writeKth G ord left false) = pure H ∧ H.directed = true ∧ H.nodes = intsTo G.nodes.length ∧
      ∀ u ∈ G.nodes, ∀ v ∈ G.nodes, H.hasEdge (numOf ord u) (numOf ord v) = G.hasEdge u v) ∧
    (¬ NoCycle (fun u v => G.hasEdge u v = true) → readKth .dag (writeKth G ord left false) = raise .valueError) := by
  have ht := kthText_write G hw hord (left := []) (bip := false) (by simp) hn
  have hc := noCycle_kthAdj hw hord
  obtain ⟨h1, h2⟩ := C71_kth_dag ht
  constructor
  · intro hno
    obtain ⟨H, e, k1, k2, _, k4⟩ := h1 (hc.2 hno)
    refine ⟨H, e, k1, k2, fun u hu v hv => ?_⟩
    have hv' : ∀ v ∈ ord, v ∈ G.nodes := fun v h => hord.mem_iff.1 h
    rw [Bool.eq_iff_iff, k4, if_neg (by simp), listed_kthAdj hw hord hv' hu hv, hord.mem_iff]
    tauto
  · intro hno
    exact h2 (fun h => hno (hc.1 h))

/-- **C72, bipartite graphs.** A graph with a bipartition that its edges respect, written as a bipartite kthlist and read again, is the same graph with
the same sides. -/
theorem C72_kth_bipartite (G : Nx V) (hw : G.Wf) (hd : G.directed = false) {ord left : List V} (hord : ord.Perm G.nodes)
    (hl : ∀ v, v ∈ left ↔ v ∈ G.nodes ∧ G.color v = some false) (hc : ∀ v ∈ G.nodes, (G.color v).isSome = true)
    (hcross : ∀ e ∈ G.edges, G.color e.1 ≠ G.color e.2) (hn : NameOK G.name) :
    ∃ H, readKth .bipartite (writeKth G ord left true) = pure H ∧ H.directed = false ∧ H.nodes = intsTo G.nodes.length ∧
      (∀ u ∈ G.nodes, ∀ v ∈ G.nodes, H.hasEdge (numOf ord u) (numOf ord v) = G.hasEdge u v) ∧ ∀ v ∈ G.nodes, H.color (numOf ord v) = G.color v := by
  have hlm : ∀ v ∈ left, v ∈ G.nodes := fun v h => ((hl v).1 h).1
  have ht := kthText_write G hw hord (bip := true) hlm hn
  rw [if_pos rfl] at ht
  have hce : ∀ u v, G.hasEdge u v = true → G.color u ≠ G.color v := by
    intro u v h
    rcases hasEdge_iff.1 h with h | ⟨_, h⟩
    · exact hcross _ h
    · exact (hcross _ h).symm
  have hdis : ∀ a ∈ kthAdj G ord left, ∀ b ∈ kthAdj G ord left, a.1 ∉ b.2 := by
    intro a ha b hb hab
    have hlist : Listed (kthAdj G ord left) a.1 b.1 := ⟨b, hb, rfl, hab⟩
    obtain ⟨x, hx, rfl⟩ := List.mem_map.1 ha
    obtain ⟨y, hy, rfl⟩ := List.mem_map.1 hb
    have := ((listed_kthAdj hw hord hlm (hlm x hx) (hlm y hy)).1 hlist).2
    exact hce x y this (((hl x).1 hx).2.trans ((hl y).1 hy).2.symm)
  obtain ⟨H, e, hs⟩ := C71_kth_bipartite_sides ht hdis
  rcases C71_kth_bipartite ht with e' | ⟨H', e', k1, k2, k3, k4, _⟩
  · rw [e] at e'; simp at e'
  · rw [e] at e'
    have := (M.pure_inj _ _).1 e'
    subst this
    refine ⟨H, e, k1, k2, ?_, ?_⟩
    · intro u hu v hv
      rw [Bool.eq_iff_iff, k3, listed_kthAdj hw hord hlm hu hv, listed_kthAdj hw hord hlm hv hu, hasEdge_symm hd v u]
      constructor
      · rintro (h | h)
        · exact h.2
        · exact h.2
      · intro h
        have h1 := hc u hu
        have h2 := hc v hv
        have h3 := hce u v h
        rw [hl, hl]
        cases eu : G.color u with
        | none => rw [eu] at h1; cases h1
        | some a =>
          cases ev : G.color v with
          | none => rw [ev] at h2; cases h2
          | some b =>
            rw [eu, ev] at h3
            cases a <;> cases b <;> simp_all
    · intro v hv
      have hvn : (numOf ord v : Int) ∈ H.nodes := by
        rw [k2, mem_intsTo]
        have := numOf_range (hord.mem_iff.2 hv)
        have := hord.length_eq
        omega
      have h1 := hs _ hvn
      have h2 := k4 _ hvn
      have h3 : (∃ a ∈ kthAdj G ord left, (numOf ord v : Int) = a.1) ↔ v ∈ left := by
        constructor
        · rintro ⟨a, ha, e⟩
          obtain ⟨x, hx, rfl⟩ := List.mem_map.1 ha
          have e : (numOf ord v : Int) = numOf ord x := e
          have := numOf_inj (hord.mem_iff.2 hv) (by exact_mod_cast e)
          rw [this]; exact hx
        · intro h; exact ⟨_, List.mem_map.2 ⟨v, h, rfl⟩, rfl⟩
      rw [h3, hl] at h1
      have h4 := hc v hv
      cases ev : G.color v with
      | none => rw [ev] at h4; cases h4
      | some b =>
        cases eh : H.color (numOf ord v) with
        | none => rw [eh] at h2; cases h2
        | some c =>
          rw [eh, ev] at h1
          cases b <;> cases c <;> simp [hv] at h1 ⊢

/-! ### Names -/

theorem readKth_name {ty : GType} {text : Str} {G : Nx Int} (h : readKth ty text = pure G) : G.name = commentText (readlines text) := by
  unfold readKth at h
  obtain ⟨G', e1, e2⟩ := M.bind_eq_pure.1 h
  have hG : G = G' := by
    cases ty with
    | simple => exact ((M.pure_inj _ _).1 e2).symm
    | digraph => exact ((M.pure_inj _ _).1 e2).symm
    | dag =>
      dsimp only at e2
      obtain ⟨ok, _, e3⟩ := M.bind_eq_pure.1 e2
      split at e3
      · exact ((M.pure_inj _ _).1 e3).symm
      · simp at e3
    | bipartite =>
      dsimp only at e2
      split at e2
      · exact ((M.pure_inj _ _).1 e2).symm
      · simp at e2
  subst hG
  unfold kthGraph at e1
  dsimp only at e1
  obtain ⟨st, _, e4⟩ := M.bind_eq_pure.1 e1
  split at e4 <;> split at e4
  · simp at e4
  · rw [← (M.pure_inj _ _).1 e4]
  · simp at e4
  · rw [← (M.pure_inj _ _).1 e4]

theorem natStr_not_c (n : Nat) (rest : Str) : startsWith 'c' (natStr n ++ rest) = false := (data_natStr n rest).1

/-- **C72, names.** A name without line break comes back with a line break at its end, and then does not change any more. -/
theorem C72_kth_name (ty : GType) (G : Nx V) {ord left : List V} {bip : Bool} {x : Str} (hx : '\n' ∉ x) (hn : G.name = x ∨ G.name = x ++ ['\n'])
    {H : Nx Int} (h : readKth ty (writeKth G ord left bip) = pure H) : H.name = x ++ ['\n'] := by
  rw [readKth_name h]
  have hsp : splitOn '\n' ("c ".toList ++ G.name) = ["c ".toList ++ x] ∨ splitOn '\n' ("c ".toList ++ G.name) = ["c ".toList ++ x, []] := by
    have h1 : '\n' ∉ "c ".toList ++ x := by simp only [List.mem_append, not_or]; exact ⟨by decide, hx⟩
    rcases hn with hn | hn
    · rw [hn]; exact .inl (splitOn_no_sep _ _ h1)
    · rw [hn, ← List.append_assoc, splitOn_append_sep _ _ _ h1]; exact .inr rfl
  have hs := split_writeKth G ord left bip
  have hall : ∀ l ∈ natStr G.nodes.length :: ((if bip then left else ord).map fun v =>
      kthLineBody (numOf ord v) (isort (fun a b => decide (a < b)) ((G.preds v).map (numOf ord)))), startsWith 'c' (l ++ ['\n']) = false := by
    intro l hl
    rcases List.mem_cons.1 hl with rfl | hl
    · exact natStr_not_c _ _
    · obtain ⟨v, _, rfl⟩ := List.mem_map.1 hl
      unfold kthLineBody
      rw [List.append_assoc, List.append_assoc, List.append_assoc]
      exact natStr_not_c _ _
  generalize natStr G.nodes.length :: ((if bip then left else ord).map fun v =>
      kthLineBody (numOf ord v) (isort (fun a b => decide (a < b)) ((G.preds v).map (numOf ord)))) = body at hs hall
  have hfin : ∀ pre : List Str, splitOn '\n' (writeKth G ord left bip) = ("c ".toList ++ x) :: (pre ++ body ++ [[], []]) → (∀ l ∈ pre, l = []) →
      commentText (readlines (writeKth G ord left bip)) = x ++ ['\n'] := by
    intro pre e hpre
    unfold commentText readlines
    rw [e]
    have hd : (("c ".toList ++ x) :: (pre ++ body ++ [[], []])).dropLast = ("c ".toList ++ x) :: (pre ++ body ++ [[]]) := by
      rw [show ("c ".toList ++ x) :: (pre ++ body ++ [[], []]) = (("c ".toList ++ x) :: (pre ++ body ++ [[]])) ++ [[]] by simp, List.dropLast_concat]
    have hl : (("c ".toList ++ x) :: (pre ++ body ++ [[], []])).getLastD [] = [] := by
      rw [show ("c ".toList ++ x) :: (pre ++ body ++ [[], []]) = (("c ".toList ++ x) :: (pre ++ body ++ [[]])) ++ [[]] by simp]
      rw [List.getLastD_eq_getLast?, List.getLast?_concat]; rfl
    rw [hd, hl, if_pos rfl, List.append_nil, List.map_cons, List.filter_cons, if_pos (by simp [startsWith])]
    have hrest : ((pre ++ body ++ [[]]).map (· ++ ['\n'])).filter (startsWith 'c') = [] := by
      rw [List.filter_eq_nil_iff]
      intro l hl
      obtain ⟨l', hl', rfl⟩ := List.mem_map.1 hl
      rw [List.mem_append, List.mem_append] at hl'
      rcases hl' with (hl' | hl') | hl'
      · rw [hpre l' hl']; decide
      · rw [hall l' hl']; decide
      · rw [List.mem_singleton] at hl'; subst hl'; decide
    rw [hrest]
    simp
  rcases hsp with hsp | hsp
  · rw [hsp] at hs
    exact hfin [] (by rw [hs]; simp) (by simp)
  · rw [hsp] at hs
    exact hfin [[]] (by rw [hs]; simp) (by simp)

end

/-! ### Cases -/

/-- The names admitted: one line, or one line and a line break. -/
theorem nameOK_of {x : Str} (hx : '\n' ∉ x) : NameOK x ∧ NameOK (x ++ ['\n']) := by
  unfold NameOK
  rw [splitOn_no_sep _ _ hx, splitOn_append_sep _ _ _ hx]
  exact ⟨by simp, by simp [splitOn, strip]⟩

/-- A graph with an edge meets the hypotheses of C72. -/
example : ∃ G : Nx Str, G.Wf ∧ G.directed = false ∧ NameOK G.name ∧ G.hasEdge "a".toList "b".toList = true ∧ G.color "a".toList = some false ∧
    G.color "b".toList = some true ∧ (∀ e ∈ G.edges, G.color e.1 ≠ G.color e.2) :=
  ⟨⟨false, "an edge".toList, ["a".toList, "b".toList], [("a".toList, "b".toList)], fun v => some (decide (v ≠ "a".toList)), false⟩,
    ⟨by decide, by decide⟩, rfl, (nameOK_of (by decide)).1, by decide, by decide, by decide, by decide⟩

/-- **C72 refuted for names of more lines.** A file with two comments is read; the graph read, written, gives a file that is refused. -/
theorem C72_kth_refuted : ∃ G, readKth .simple "c first\nc second\n1\n".toList = pure G ∧
    readKth .simple (writeKth G G.nodes [] false) = raise .valueError := ⟨_, rfl, rfl⟩

end NDP.Cnfgen
