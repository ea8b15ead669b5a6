import Verif.Cnfgen.GraphRound
/-
  C73: graphs in the dimacs format, reading and writing.
-/
namespace NDP.Cnfgen
open NDP

/-! ### Specification -/

/-- A line `p edge n m` (its first word may be anything beginning with `p`). -/
def PLine (l : Str) (n m : Int) : Prop := ∃ w x y, splitWS l = [w, "edge".toList, x, y] ∧ parseInt x = some n ∧ parseInt y = some m

/-- A line `e v w` (its first word may be anything beginning with `e`). -/
def ELine (l : Str) (e : Int × Int) : Prop := ∃ w x y, splitWS l = [w, x, y] ∧ parseInt x = some e.1 ∧ parseInt y = some e.2

/-- A dimacs text: one line `p edge n m`, `m` lines `e v w`; all other lines begin with neither `p` nor `e`. -/
def GdimText (text : Str) (n : Nat) (es : List (Int × Int)) : Prop :=
  (∃ l, (splitOn '\n' text).filter (startsWith 'p') = [l] ∧ PLine l n es.length) ∧
    List.Forall₂ ELine ((splitOn '\n' text).filter (startsWith 'e')) es

/-- `readGraph` of a dimacs file (`graphs.py` 194-296): acyclicity is checked when asked for. -/
def readGdimType (ty : GType) (text : Str) : M (Nx Int) := do
  let G ← readGdim ty.directed text
  if ty = .dag ∧ G.isAcyclic = false then raise .valueError else pure G

/-! ### Lines -/

theorem gdimLine_nl (st : GdimSt) (x : Str) : gdimLine st (x ++ ['\n']) = gdimLine st x := by
  unfold gdimLine
  rw [startsWith_nl (by decide), startsWith_nl (by decide), startsWith_nl (by decide), splitWS_nl]

theorem loop_lines {S : Type} (f : S → Str → M S) (hnl : ∀ st x, f st (x ++ ['\n']) = f st x) (hnil : ∀ st, f st [] = pure st) (text : Str) (st : S) :
    (readlines text).foldlM f st = (splitOn '\n' text).foldlM f st := by
  have key : ∀ (ls : List Str), ls ≠ [] → ∀ st, (ls.dropLast.map (· ++ ['\n']) ++ (if ls.getLastD [] = [] then [] else [ls.getLastD []])).foldlM f st =
      ls.foldlM f st := by
    intro ls
    induction ls with
    | nil => intro h; exact absurd rfl h
    | cons l ls ih =>
      intro _ st
      cases ls with
      | nil =>
        by_cases hl : l = []
        · subst hl; rw [List.foldlM_cons, hnil]; rfl
        · simp [hl]
      | cons l' ls =>
        have := ih (by simp)
        simp only [List.dropLast_cons₂, List.map_cons, List.cons_append, List.foldlM_cons, hnl] at this ⊢
        congr 1
        funext s
        have := this s
        simpa using this
  exact key _ (splitOn_ne_nil _ _) st

/-! ### Graphs -/
section
variable {V : Type} [DecidableEq V]

theorem addNode_same (G : Nx V) (v : V) : (G.addNode v).directed = G.directed ∧ (G.addNode v).edges = G.edges ∧ (G.addNode v).color = G.color ∧
    (G.addNode v).name = G.name ∧ (G.addNode v).topo = G.topo := by
  unfold Nx.addNode; split <;> exact ⟨rfl, rfl, rfl, rfl, rfl⟩

theorem mem_addNode (G : Nx V) (v x : V) : x ∈ (G.addNode v).nodes ↔ x ∈ G.nodes ∨ x = v := by
  unfold Nx.addNode
  split
  · rename_i h; constructor
    · exact .inl
    · rintro (h' | rfl)
      · exact h'
      · exact h
  · simp

theorem addNode_nodup {G : Nx V} (h : G.nodes.Nodup) (v : V) : (G.addNode v).nodes.Nodup := by
  unfold Nx.addNode
  split
  · exact h
  · rename_i hv
    exact List.Nodup.append h (by simp) (by simp [hv])

/-- `H` is `G` with the edges `es` (and their ends) and the nodes `vs` more. -/
structure GExt (G H : Nx V) (vs : List V) (es : List (V × V)) : Prop where
  directed : H.directed = G.directed
  topo : H.topo = G.topo
  nodes : ∀ x, x ∈ H.nodes ↔ x ∈ G.nodes ∨ x ∈ vs ∨ ∃ e ∈ es, x = e.1 ∨ x = e.2
  edges : ∀ a b, H.hasEdge a b = true ↔ G.hasEdge a b = true ∨ (a, b) ∈ es ∨ (G.directed = false ∧ (b, a) ∈ es)
  wf : G.Wf → H.Wf

theorem GExt.refl (G : Nx V) : GExt G G [] [] := ⟨rfl, rfl, by simp, by simp, id⟩

theorem GExt.trans {G H K : Nx V} {vs vs' : List V} {es es' : List (V × V)} (h : GExt G H vs es) (h' : GExt H K vs' es') : GExt G K (vs ++ vs') (es ++ es') := by
  refine ⟨h'.directed.trans h.directed, h'.topo.trans h.topo, ?_, ?_, fun w => h'.wf (h.wf w)⟩
  · intro x
    rw [h'.nodes, h.nodes]
    simp only [List.mem_append]
    constructor
    · rintro ((h | h | ⟨e, he, hx⟩) | h | ⟨e, he, hx⟩)
      · exact .inl h
      · exact .inr (.inl (.inl h))
      · exact .inr (.inr ⟨e, .inl he, hx⟩)
      · exact .inr (.inl (.inr h))
      · exact .inr (.inr ⟨e, .inr he, hx⟩)
    · rintro (h | (h | h) | ⟨e, he | he, hx⟩)
      · exact .inl (.inl h)
      · exact .inl (.inr (.inl h))
      · exact .inr (.inl h)
      · exact .inl (.inr (.inr ⟨e, he, hx⟩))
      · exact .inr (.inr ⟨e, he, hx⟩)
  · intro a b
    rw [h'.edges, h.edges, h.directed]
    simp only [List.mem_append]
    tauto

theorem gext_addNode (G : Nx V) (v : V) : GExt G (G.addNode v) [v] [] := by
  obtain ⟨h1, h2, _, _, h5⟩ := addNode_same G v
  refine ⟨h1, h5, fun x => ?_, fun a b => ?_, fun w => ⟨addNode_nodup w.nodup v, fun e he => ?_⟩⟩
  · rw [mem_addNode]; simp
  · unfold Nx.hasEdge; rw [h1, h2]; simp
  · rw [h2] at he
    rw [mem_addNode, mem_addNode]
    exact ⟨.inl (w.ends e he).1, .inl (w.ends e he).2⟩

theorem gext_addEdge (G : Nx V) (u v : V) : GExt G (G.addEdge u v) [] [(u, v)] := by
  have h1 := (gext_addNode G u).trans (gext_addNode (G.addNode u) v)
  have hu : u ∈ ((G.addNode u).addNode v).nodes := by rw [h1.nodes]; simp
  have hv : v ∈ ((G.addNode u).addNode v).nodes := by rw [h1.nodes]; simp
  have hK : G.addEdge u v = ((G.addNode u).addNode v).addEdge u v := by
    conv_rhs => unfold Nx.addEdge
    rw [addNode_mem hu, addNode_mem hv]; rfl
  have hs := addEdge_same hu hv
  have he := hasEdge_addEdge hu hv
  rw [hK]
  refine ⟨hs.directed.trans h1.directed, hs.topo.trans h1.topo, fun x => ?_, fun a b => ?_, fun w => ⟨by rw [hs.nodes]; exact (h1.wf w).nodup, fun e hh => ?_⟩⟩
  · rw [hs.nodes, h1.nodes]; simp
  · rw [he, h1.edges, h1.directed]
    simp only [List.append_nil, List.not_mem_nil, or_false, and_false, List.mem_singleton, Prod.mk.injEq]
    tauto
  · rw [hs.nodes]
    rcases mem_addEdge hu hv hh with hh | rfl
    · exact (h1.wf w).ends e hh
    · exact ⟨hu, hv⟩

theorem gext_addNodes (G : Nx V) : ∀ vs : List V, GExt G (G.addNodes vs) vs [] := by
  intro vs
  induction vs generalizing G with
  | nil => exact GExt.refl G
  | cons v vs ih =>
    have := (gext_addNode G v).trans (ih (G.addNode v))
    exact this
end

/-! ### The loop -/

theorem starts_excl {c d : Char} {l : Str} (h : startsWith c l = true) (hcd : c ≠ d) : startsWith d l = false := by
  cases l with
  | nil => rfl
  | cons x l =>
    simp only [startsWith, decide_eq_true_eq] at h ⊢
    subst h
    simp [hcd]

theorem gdim_skip {st : GdimSt} {l : Str} (hp : startsWith 'p' l = false) (he : startsWith 'e' l = false) : gdimLine st l = pure st := by
  unfold gdimLine
  split
  · rfl
  · rw [if_neg (by simp [hp]), if_neg (by simp [he])]

theorem gdim_e {l : Str} (h : startsWith 'e' l = true) :
    (∃ e, ELine l e ∧ ∀ st, gdimLine st l = pure { st with cnt := st.cnt + 1, G := st.G.addEdge e.1 e.2 }) ∨
    ((¬ ∃ e, ELine l e) ∧ ∀ st, gdimLine st l = raise .valueError) := by
  have hc := starts_excl h (d := 'c') (by decide)
  have hp := starts_excl h (d := 'p') (by decide)
  have hg : ∀ st, gdimLine st l = (match splitWS l with
    | [_, v, w] => do
      let v ← orRaise .valueError (parseInt v)
      let w ← orRaise .valueError (parseInt w)
      pure { st with cnt := st.cnt + 1, G := st.G.addEdge v w }
    | _ => raise .valueError) := by
    intro st
    unfold gdimLine
    rw [if_neg (by simp [hc]), if_neg (by simp [hp]), if_pos h]
    rfl
  unfold ELine
  simp only [hg]
  match hs : splitWS l with
  | [w, x, y] =>
    cases hx : parseInt x with
    | none =>
      refine .inr ⟨?_, fun st => ?_⟩
      · rintro ⟨e, w', x', y', h1, h2, h3⟩; simp only [List.cons.injEq, and_true] at h1; rw [← h1.2.1, hx] at h2; cases h2
      · dsimp only; rw [hx]; rfl
    | some v =>
      cases hy : parseInt y with
      | none =>
        refine .inr ⟨?_, fun st => ?_⟩
        · rintro ⟨e, w', x', y', h1, h2, h3⟩; simp only [List.cons.injEq, and_true] at h1; rw [← h1.2.2, hy] at h3; cases h3
        · dsimp only; rw [hx, hy]; rfl
      | some u =>
        refine .inl ⟨(v, u), ⟨w, x, y, rfl, hx, hy⟩, fun st => ?_⟩
        dsimp only; rw [hx, hy]; rfl
  | [] => exact .inr ⟨by rintro ⟨e, w', x', y', h1, _⟩; simp at h1, fun _ => rfl⟩
  | [_] => exact .inr ⟨by rintro ⟨e, w', x', y', h1, _⟩; simp at h1, fun _ => rfl⟩
  | [_, _] => exact .inr ⟨by rintro ⟨e, w', x', y', h1, _⟩; simp at h1, fun _ => rfl⟩
  | _ :: _ :: _ :: _ :: _ => exact .inr ⟨by rintro ⟨e, w', x', y', h1, _⟩; simp at h1, fun _ => rfl⟩

theorem gdim_p {l : Str} (h : startsWith 'p' l = true) :
    (∃ n m, PLine l n m ∧ (∀ n' m', PLine l n' m' → n' = n ∧ m' = m) ∧
      ∀ st : GdimSt, gdimLine st l = if st.n ≥ 0 then raise .valueError else pure { st with n := n, m := m, G := st.G.addNodes (intsTo n.toNat) }) ∨
    ((¬ ∃ n m, PLine l n m) ∧ ∀ st, gdimLine st l = raise .valueError) := by
  have hc := starts_excl h (d := 'c') (by decide)
  have hg : ∀ st, gdimLine st l = if st.n ≥ 0 then raise .valueError else (match splitWS l with
    | [_, fmt, nstr, mstr] =>
      if fmt ≠ "edge".toList then raise .valueError else do
        let n ← orRaise .valueError (parseInt nstr)
        let m ← orRaise .valueError (parseInt mstr)
        pure { st with n := n, m := m, G := st.G.addNodes (intsTo n.toNat) }
    | _ => raise .valueError) := by
    intro st
    unfold gdimLine
    rw [if_neg (by simp [hc]), if_pos h]
    rfl
  have bad : ∀ {P : Prop} (_ : ¬ P) (_ : ∀ st : GdimSt, (match splitWS l with
    | [_, fmt, nstr, mstr] =>
      if fmt ≠ "edge".toList then raise .valueError else do
        let n ← orRaise .valueError (parseInt nstr)
        let m ← orRaise .valueError (parseInt mstr)
        pure { st with n := n, m := m, G := st.G.addNodes (intsTo n.toNat) }
    | _ => raise .valueError : M GdimSt) = raise .valueError), ¬ P ∧ ∀ st, gdimLine st l = raise .valueError := by
    intro P hP hh
    refine ⟨hP, fun st => ?_⟩
    rw [hg, hh]
    split <;> rfl
  unfold PLine at *
  match hs : splitWS l with
  | [w, f, x, y] =>
    by_cases hf : f = "edge".toList
    · subst hf
      cases hx : parseInt x with
      | none =>
        refine .inr (bad ?_ ?_)
        · rintro ⟨n, m, w', x', y', h1, h2, h3⟩; simp only [List.cons.injEq, and_true, true_and] at h1; rw [← h1.2.1, hx] at h2; cases h2
        · intro st; rw [hs]; dsimp only; rw [if_neg (by simp), hx]; rfl
      | some v =>
        cases hy : parseInt y with
        | none =>
          refine .inr (bad ?_ ?_)
          · rintro ⟨n, m, w', x', y', h1, h2, h3⟩; simp only [List.cons.injEq, and_true, true_and] at h1; rw [← h1.2.2, hy] at h3; cases h3
          · intro st; rw [hs]; dsimp only; rw [if_neg (by simp), hx, hy]; rfl
        | some u =>
          refine .inl ⟨v, u, ⟨w, x, y, rfl, hx, hy⟩, ?_, fun st => ?_⟩
          · rintro n' m' ⟨w', x', y', h1, h2, h3⟩
            simp only [List.cons.injEq, and_true, true_and] at h1
            rw [← h1.2.1, hx] at h2
            rw [← h1.2.2, hy] at h3
            simp only [Option.some.injEq] at h2 h3
            exact ⟨h2.symm, h3.symm⟩
          · rw [hg, hs]; dsimp only; rw [if_neg (c := "edge".toList ≠ "edge".toList) (by simp), hx, hy]; rfl
    · refine .inr (bad ?_ ?_)
      · rintro ⟨n, m, w', x', y', h1, _⟩; simp only [List.cons.injEq] at h1; exact hf h1.2.1
      · intro st; rw [hs]; dsimp only; rw [if_pos hf]
  | [] => exact .inr (bad (by rintro ⟨n, m, w', x', y', h1, _⟩; simp at h1) (by intro st; rw [hs]))
  | [_] => exact .inr (bad (by rintro ⟨n, m, w', x', y', h1, _⟩; simp at h1) (by intro st; rw [hs]))
  | [_, _] => exact .inr (bad (by rintro ⟨n, m, w', x', y', h1, _⟩; simp at h1) (by intro st; rw [hs]))
  | [_, _, _] => exact .inr (bad (by rintro ⟨n, m, w', x', y', h1, _⟩; simp at h1) (by intro st; rw [hs]))
  | _ :: _ :: _ :: _ :: _ :: _ => exact .inr (bad (by rintro ⟨n, m, w', x', y', h1, _⟩; simp at h1) (by intro st; rw [hs]))

/-- What the loop does: it fails with `ValueError`, or the lines `p`, `e` are of the form wanted; the last line `p` says how many. -/
theorem gdimLoop (ls : List Str) : ∀ st : GdimSt,
    ls.foldlM gdimLine st = raise .valueError ∨
    ∃ st' vs es, ls.foldlM gdimLine st = pure st' ∧ List.Forall₂ ELine (ls.filter (startsWith 'e')) es ∧ st'.cnt = st.cnt + es.length ∧
      GExt st.G st'.G vs es ∧
      ((ls.filter (startsWith 'p') = [] ∧ st'.n = st.n ∧ st'.m = st.m ∧ vs = []) ∨
       (∃ l, ls.filter (startsWith 'p') = [l] ∧ PLine l st'.n st'.m ∧ st.n < 0 ∧ vs = intsTo st'.n.toNat) ∨
       ∃ l ∈ ls.filter (startsWith 'p'), ∃ n m, PLine l n m ∧ n < 0) := by
  induction ls with
  | nil => intro st; exact .inr ⟨st, [], [], rfl, .nil, by simp, GExt.refl _, .inl ⟨rfl, rfl, rfl, rfl⟩⟩
  | cons l ls ih =>
    intro st
    rw [List.foldlM_cons]
    by_cases hp : startsWith 'p' l = true
    · have he := starts_excl hp (d := 'e') (by decide)
      rw [List.filter_cons, List.filter_cons, if_neg (by simp [he]), if_pos hp]
      rcases gdim_p hp with ⟨n, m, hpl, huniq, hg⟩ | ⟨_, hg⟩
      · rw [hg]
        split
        · exact .inl rfl
        · rename_i hn
          rw [M.pure_bind]
          rcases ih { st with n := n, m := m, G := st.G.addNodes (intsTo n.toNat) } with h | ⟨st', vs, es, h1, h2, h3, h4, h5⟩
          · exact .inl h
          · refine .inr ⟨st', intsTo n.toNat ++ vs, es, h1, h2, h3, ?_, ?_⟩
            · exact (gext_addNodes st.G (intsTo n.toNat)).trans h4
            · rcases h5 with ⟨h5, h6, h7, rfl⟩ | ⟨l', h5, h6, h7, rfl⟩ | ⟨l', h5, h6⟩
              · dsimp only at h6 h7
                refine .inr (.inl ⟨l, by rw [h5], by rw [h6, h7]; exact hpl, by omega, by rw [h6]; simp⟩)
              · exact .inr (.inr ⟨l, by simp, n, m, hpl, h7⟩)
              · exact .inr (.inr ⟨l', by simp [h5], h6⟩)
      · rw [hg]; exact .inl rfl
    · have hp : startsWith 'p' l = false := by simpa using hp
      rw [List.filter_cons, List.filter_cons, if_neg (c := startsWith 'p' l = true) (by simp [hp])]
      by_cases he : startsWith 'e' l = true
      · rw [if_pos he]
        rcases gdim_e he with ⟨e, hel, hg⟩ | ⟨_, hg⟩
        · rw [hg, M.pure_bind]
          rcases ih { st with cnt := st.cnt + 1, G := st.G.addEdge e.1 e.2 } with h | ⟨st', vs, es, h1, h2, h3, h4, h5⟩
          · exact .inl h
          · refine .inr ⟨st', vs, e :: es, h1, .cons hel h2, ?_, (gext_addEdge st.G e.1 e.2).trans h4, h5⟩
            rw [h3]; simp only [List.length_cons]; push_cast; omega
        · rw [hg]; exact .inl rfl
      · have he : startsWith 'e' l = false := by simpa using he
        rw [if_neg (by simp [he]), gdim_skip hp he, M.pure_bind]
        exact ih st

theorem gdimLoop_ok (ls : List Str) : ∀ (st : GdimSt) {es : List (Int × Int)}, List.Forall₂ ELine (ls.filter (startsWith 'e')) es →
    (ls.filter (startsWith 'p') = [] ∨ (st.n < 0 ∧ ∃ l n m, ls.filter (startsWith 'p') = [l] ∧ PLine l n m)) →
    ∃ st', ls.foldlM gdimLine st = pure st' := by
  induction ls with
  | nil => intro st es _ _; exact ⟨st, rfl⟩
  | cons l ls ih =>
    intro st es hf hpp
    rw [List.foldlM_cons]
    by_cases hp : startsWith 'p' l = true
    · have he := starts_excl hp (d := 'e') (by decide)
      rw [List.filter_cons, if_neg (by simp [he])] at hf
      rw [List.filter_cons, if_pos hp] at hpp
      rcases hpp with h | ⟨hn, l', n, m, h, hpl⟩
      · simp at h
      · simp only [List.cons.injEq] at h
        obtain ⟨rfl, h⟩ := h
        rcases gdim_p hp with ⟨n', m', _, _, hg⟩ | ⟨hno, _⟩
        · rw [hg, if_neg (by omega), M.pure_bind]; exact ih _ hf (.inl h)
        · exact absurd ⟨n, m, hpl⟩ hno
    · have hp : startsWith 'p' l = false := by simpa using hp
      rw [List.filter_cons, if_neg (by simp [hp])] at hpp
      by_cases he : startsWith 'e' l = true
      · rw [List.filter_cons, if_pos he] at hf
        cases hf with
        | @cons _ e _ es' h1 h2 =>
          rcases gdim_e he with ⟨e', _, hg⟩ | ⟨hno, _⟩
          · rw [hg, M.pure_bind]; exact ih _ h2 hpp
          · exact absurd ⟨e, h1⟩ hno
      · have he : startsWith 'e' l = false := by simpa using he
        rw [List.filter_cons, if_neg (by simp [he])] at hf
        rw [gdim_skip hp he, M.pure_bind]
        exact ih st hf hpp

theorem ELine.unique {l : Str} {e e' : Int × Int} (h : ELine l e) (h' : ELine l e') : e = e' := by
  obtain ⟨w, x, y, h1, h2, h3⟩ := h
  obtain ⟨w', x', y', h1', h2', h3'⟩ := h'
  rw [h1] at h1'
  simp only [List.cons.injEq, and_true] at h1'
  rw [← h1'.2.1, h2] at h2'
  rw [← h1'.2.2, h3] at h3'
  simp only [Option.some.injEq] at h2' h3'
  exact Prod.ext h2' h3'

theorem forall₂_eline_unique {ls : List Str} {a b : List (Int × Int)} (ha : List.Forall₂ ELine ls a) (hb : List.Forall₂ ELine ls b) : a = b := by
  induction ha generalizing b with
  | nil => cases hb; rfl
  | cons h1 h2 ih =>
    cases hb with
    | cons h3 h4 => rw [h1.unique h3, ih h4]

theorem PLine.unique {l : Str} {n m n' m' : Int} (h : PLine l n m) (h' : PLine l n' m') : n = n' ∧ m = m' := by
  obtain ⟨w, x, y, h1, h2, h3⟩ := h
  obtain ⟨w', x', y', h1', h2', h3'⟩ := h'
  rw [h1] at h1'
  simp only [List.cons.injEq, and_true, true_and] at h1'
  rw [← h1'.2.1, h2] at h2'
  rw [← h1'.2.2, h3] at h3'
  simp only [Option.some.injEq] at h2' h3'
  exact ⟨h2', h3'⟩

/-! ### C73 -/

/-- **C73, reading.** A dimacs text gives the graph with the edges of its lines; its vertices are `1 … n` and the ends of the edges, which are not
checked to be in this range. -/
theorem C73_dimacs_read (directed : Bool) {text : Str} {n : Nat} {es : List (Int × Int)} (h : GdimText text n es) :
    ∃ G, readGdim directed text = pure G ∧ G.directed = directed ∧ G.Wf ∧ (∀ v, v ∈ G.nodes ↔ (1 ≤ v ∧ v ≤ n) ∨ ∃ e ∈ es, v = e.1 ∨ v = e.2) ∧
      ∀ u v, G.hasEdge u v = true ↔ (u, v) ∈ es ∨ (directed = false ∧ (v, u) ∈ es) := by
  obtain ⟨⟨l, hl, hpl⟩, hes⟩ := h
  unfold readGdim
  rw [loop_lines gdimLine gdimLine_nl (fun _ => rfl)]
  obtain ⟨st, e⟩ := gdimLoop_ok (splitOn '\n' text) { G := { directed := directed } } hes (.inr ⟨by simp, l, _, _, hl, hpl⟩)
  rcases gdimLoop (splitOn '\n' text) { G := { directed := directed } } with e' | ⟨st', vs, es', e', h2, h3, h4, h5⟩
  · rw [e] at e'; simp at e'
  · rw [e] at e'
    have := (M.pure_inj _ _).1 e'
    subst this
    have := forall₂_eline_unique h2 hes
    subst this
    have hfin : st.n = n ∧ st.m = es'.length ∧ vs = intsTo n := by
      rcases h5 with ⟨h5, _⟩ | ⟨l', h5, h6, _, hv⟩ | ⟨l', h5, n', m', h6, h7⟩
      · rw [hl] at h5; cases h5
      · rw [hl] at h5
        simp only [List.cons.injEq, and_true] at h5
        subst h5
        obtain ⟨u1, u2⟩ := h6.unique hpl
        exact ⟨u1, u2, by rw [hv, u1]; simp⟩
      · rw [hl, List.mem_singleton] at h5
        subst h5
        have := (h6.unique hpl).1
        omega
    rw [e, M.pure_bind]
    rw [if_neg (by rw [hfin.2.1, h3]; simp)]
    refine ⟨_, rfl, h4.directed, ?_, ?_, ?_⟩
    · have hw := h4.wf ⟨by simp, by simp⟩
      exact ⟨hw.nodup, hw.ends⟩
    · intro v
      show v ∈ st.G.nodes ↔ _
      rw [h4.nodes, hfin.2.2, mem_intsTo]; simp
    · intro u v
      show st.G.hasEdge u v = true ↔ _
      rw [h4.edges, hasEdge_iff]; simp

/-- **C73, refused texts.** If no line announces a negative number of vertices, a text that is not of the dimacs form is refused with `ValueError`. -/
theorem C73_dimacs_reject (directed : Bool) {text : Str} (hneg : ∀ l ∈ splitOn '\n' text, startsWith 'p' l = true → ∀ n m, PLine l n m → 0 ≤ n)
    (h : ¬ ∃ n es, GdimText text n es) : readGdim directed text = raise .valueError := by
  unfold readGdim
  rw [loop_lines gdimLine gdimLine_nl (fun _ => rfl)]
  rcases gdimLoop (splitOn '\n' text) { G := { directed := directed } } with e' | ⟨st', vs, es, e', h2, h3, h4, h5⟩
  · rw [e']; rfl
  · rw [e', M.pure_bind]
    split
    · rfl
    · rename_i hm
      exfalso
      have hm : st'.m = st'.cnt := by by_contra hc; exact hm hc
      rw [h3] at hm
      dsimp only at hm
      rcases h5 with ⟨h5, _, h6, _⟩ | ⟨l', h5, h6, _, _⟩ | ⟨l', h5, n', m', h6, h7⟩
      · rw [h6] at hm; dsimp only at hm; omega
      · have hl' : l' ∈ (splitOn '\n' text).filter (startsWith 'p') := by rw [h5]; simp
        obtain ⟨hl1, hl2⟩ := List.mem_filter.1 hl'
        have h0 := hneg l' hl1 hl2 _ _ h6
        obtain ⟨k, hk⟩ := Int.eq_ofNat_of_zero_le h0
        refine h ⟨k, es, ⟨l', h5, ?_⟩, h2⟩
        rw [hk, hm] at h6
        simpa using h6
      · obtain ⟨hl1, hl2⟩ := List.mem_filter.1 h5
        have := hneg l' hl1 hl2 _ _ h6
        omega

/-- **C73, acyclic graphs.** -/
theorem C73_dimacs_dag {text : Str} {n : Nat} {es : List (Int × Int)} (h : GdimText text n es) :
    (NoCycle (fun u v => (u, v) ∈ es) → ∃ G, readGdimType .dag text = pure G ∧ G.directed = true ∧ ∀ u v, G.hasEdge u v = true ↔ (u, v) ∈ es) ∧
    (¬ NoCycle (fun u v => (u, v) ∈ es) → readGdimType .dag text = raise .valueError) := by
  obtain ⟨G, e, h1, h2, h3, h4⟩ := C73_dimacs_read true h
  have h4 : ∀ u v, G.hasEdge u v = true ↔ (u, v) ∈ es := fun u v => by rw [h4]; simp
  have hm : ∀ u v, (u, v) ∈ G.edges ↔ (u, v) ∈ es := by
    intro u v; rw [← h4, hasEdge_iff, h1]; simp
  have hac : G.isAcyclic = true ↔ NoCycle (fun u v => (u, v) ∈ es) := by
    unfold Nx.isAcyclic
    rw [Digraph.isDag_iff ⟨h2.nodup, h2.ends⟩]
    unfold Digraph.Acyclic NoCycle
    simp only [hm]
  unfold readGdimType
  rw [show GType.directed .dag = true from rfl, e, M.pure_bind]
  constructor
  · intro hn
    exact ⟨G, by rw [if_neg (by simp [hac.2 hn])], h1, h4⟩
  · intro hn
    rw [if_pos ⟨rfl, by rw [← Bool.not_eq_true, hac]; exact hn⟩]

/-! ### Round trip -/
section
variable {V : Type} [DecidableEq V]

theorem strip_c_name {x : Str} (hx : '\n' ∉ x) : '\n' ∉ strip ("c ".toList ++ x) ∧ startsWith 'c' (strip ("c ".toList ++ x)) = true := by
  obtain ⟨a, b, ha, hb, e, _⟩ := strip_decomp ("c ".toList ++ x)
  have ha' : a = [] := by
    cases a with
    | nil => rfl
    | cons y a =>
      have : y = 'c' := by simpa using (congrArg List.head? e).symm
      have h2 := ha y (by simp)
      rw [this] at h2
      exact absurd h2 (by decide)
  subst ha'
  rw [List.nil_append] at e
  constructor
  · intro h
    have : '\n' ∈ "c ".toList ++ x := by rw [e]; exact List.mem_append.2 (.inl h)
    rcases List.mem_append.1 this with h | h
    · exact absurd h (by decide)
    · exact hx h
  · cases hs : strip ("c ".toList ++ x) with
    | nil =>
      rw [hs, List.nil_append] at e
      have := hb 'c' (by rw [← e]; simp)
      exact absurd this (by decide)
    | cons y s =>
      rw [hs] at e
      have : y = 'c' := by simpa using (congrArg List.head? e).symm
      simp [startsWith, this]

/-- **C73, round trip.** A graph whose name has one line, written in the dimacs format and read again, is the same graph on the numbers of its vertices. -/
theorem C73_dimacs_roundtrip (G : Nx V) (hw : G.Wf) {es : List (V × V)} {x : Str} (hx : '\n' ∉ x) (hn : G.name = x ∨ G.name = x ++ ['\n'])
    (hes : ∀ u v, G.hasEdge u v = true ↔ (u, v) ∈ es ∨ (G.directed = false ∧ (v, u) ∈ es)) :
    ∃ H, readGdim G.directed (writeGdim G es) = pure H ∧ H.directed = G.directed ∧ (∀ i, i ∈ H.nodes ↔ i ∈ intsTo G.nodes.length) ∧
      ∀ u ∈ G.nodes, ∀ v ∈ G.nodes, H.hasEdge (numOf G.nodes u) (numOf G.nodes v) = G.hasEdge u v := by
  have hends : ∀ e ∈ es, e.1 ∈ G.nodes ∧ e.2 ∈ G.nodes := by
    intro e he
    have : G.hasEdge e.1 e.2 = true := (hes _ _).2 (.inl he)
    rcases hasEdge_iff.1 this with h | ⟨_, h⟩
    · exact hw.ends _ h
    · exact (hw.ends _ h).symm
  have hname : strip ("c ".toList ++ G.name) = strip ("c ".toList ++ x) := by
    rcases hn with hn | hn
    · rw [hn]
    · rw [hn, ← List.append_assoc, strip_nl]
  obtain ⟨hc1, hc2⟩ := strip_c_name hx
  have hpw : ∀ n m : Nat, '\n' ∉ "p edge ".toList ++ natStr n ++ " ".toList ++ natStr m := by
    intro n m
    simp only [List.mem_append, not_or]
    exact ⟨⟨⟨by decide, Gen.nl_natStr _⟩, by decide⟩, Gen.nl_natStr _⟩
  have hew : ∀ n m : Nat, '\n' ∉ "e ".toList ++ natStr n ++ " ".toList ++ natStr m := by
    intro n m
    simp only [List.mem_append, not_or]
    exact ⟨⟨⟨by decide, Gen.nl_natStr _⟩, by decide⟩, Gen.nl_natStr _⟩
  have hsplit : splitOn '\n' (writeGdim G es) = strip ("c ".toList ++ x) :: ("p edge ".toList ++ natStr G.nodes.length ++ " ".toList ++ natStr es.length) ::
      (es.map fun e => "e ".toList ++ natStr (numOf G.nodes e.1) ++ " ".toList ++ natStr (numOf G.nodes e.2)) ++ [[]] := by
    unfold writeGdim
    rw [hname, List.append_assoc, List.append_assoc, List.singleton_append, splitOn_append_sep _ _ _ hc1, List.append_assoc _ ['\n'], List.singleton_append,
      splitOn_append_sep _ _ _ (hpw _ _), List.cons_append, List.cons_append]
    congr 2
    clear hes hends
    induction es with
    | nil => rfl
    | cons e es ih =>
      rw [List.flatMap_cons, List.map_cons, List.append_assoc, List.singleton_append]
      exact (splitOn_append_sep _ _ _ (hew _ _)).trans (by rw [ih]; rfl)
  have hpwords : splitWS ("p edge ".toList ++ natStr G.nodes.length ++ " ".toList ++ natStr es.length) = ["p".toList, "edge".toList, natStr G.nodes.length, natStr es.length] := by
    have e1 : "p edge ".toList ++ natStr G.nodes.length ++ " ".toList ++ natStr es.length =
        joinWith [' '] ["p".toList, "edge".toList, natStr G.nodes.length, natStr es.length] := by simp [joinWith]
    rw [e1, Gen.splitWS_joinWith]
    intro w hw
    simp only [List.mem_cons, List.not_mem_nil, or_false] at hw
    rcases hw with rfl | rfl | rfl | rfl
    · decide
    · decide
    · exact ⟨natStr_ne_nil _, natStr_no_space _⟩
    · exact ⟨natStr_ne_nil _, natStr_no_space _⟩
  have hewords : ∀ n m : Nat, splitWS ("e ".toList ++ natStr n ++ " ".toList ++ natStr m) = ["e".toList, natStr n, natStr m] := by
    intro n m
    have e1 : "e ".toList ++ natStr n ++ " ".toList ++ natStr m = joinWith [' '] ["e".toList, natStr n, natStr m] := by simp [joinWith]
    rw [e1, Gen.splitWS_joinWith]
    intro w hw
    simp only [List.mem_cons, List.not_mem_nil, or_false] at hw
    rcases hw with rfl | rfl | rfl
    · decide
    · exact ⟨natStr_ne_nil _, natStr_no_space _⟩
    · exact ⟨natStr_ne_nil _, natStr_no_space _⟩
  have htext : GdimText (writeGdim G es) G.nodes.length (es.map fun e => ((numOf G.nodes e.1 : Int), (numOf G.nodes e.2 : Int))) := by
    unfold GdimText
    rw [hsplit]
    have hcp := starts_excl hc2 (d := 'p') (by decide)
    have hce := starts_excl hc2 (d := 'e') (by decide)
    constructor
    · refine ⟨_, ?_, _, _, _, hpwords, parseInt_natStr _, by rw [List.length_map]; exact parseInt_natStr _⟩
      rw [List.cons_append, List.cons_append, List.filter_cons, if_neg (by rw [hcp]; decide), List.filter_cons, if_pos (by simp [startsWith]), List.filter_append]
      have : (es.map fun e => "e ".toList ++ natStr (numOf G.nodes e.1) ++ " ".toList ++ natStr (numOf G.nodes e.2)).filter (startsWith 'p') = [] := by
        rw [List.filter_eq_nil_iff]
        intro l hl
        obtain ⟨e, _, rfl⟩ := List.mem_map.1 hl
        simp [startsWith]
      rw [this]; rfl
    · rw [List.cons_append, List.cons_append, List.filter_cons, if_neg (by rw [hce]; decide), List.filter_cons, if_neg (by simp [startsWith]), List.filter_append]
      have : (es.map fun e => "e ".toList ++ natStr (numOf G.nodes e.1) ++ " ".toList ++ natStr (numOf G.nodes e.2)).filter (startsWith 'e') =
          es.map fun e => "e ".toList ++ natStr (numOf G.nodes e.1) ++ " ".toList ++ natStr (numOf G.nodes e.2) := by
        rw [List.filter_eq_self]
        intro l hl
        obtain ⟨e, _, rfl⟩ := List.mem_map.1 hl
        simp [startsWith]
      rw [this, show List.filter (startsWith 'e') [[]] = [] from rfl, List.append_nil, List.forall₂_map_left_iff, List.forall₂_map_right_iff]
      exact List.forall₂_same.2 fun e _ => ⟨_, _, _, hewords _ _, parseInt_natStr _, parseInt_natStr _⟩
  obtain ⟨H, e, h1, _, h3, h4⟩ := C73_dimacs_read G.directed htext
  refine ⟨H, e, h1, fun i => ?_, fun u hu v hv => ?_⟩
  · rw [h3, mem_intsTo]
    constructor
    · rintro (h | ⟨e, he, hh⟩)
      · exact h
      · obtain ⟨e', he', rfl⟩ := List.mem_map.1 he
        have r1 := numOf_range (hends e' he').1
        have r2 := numOf_range (hends e' he').2
        rcases hh with rfl | rfl
        · dsimp only; omega
        · dsimp only; omega
    · exact .inl
  · have hmem : ∀ u ∈ G.nodes, ∀ v ∈ G.nodes, ((numOf G.nodes u : Int), (numOf G.nodes v : Int)) ∈ es.map (fun e => ((numOf G.nodes e.1 : Int), (numOf G.nodes e.2 : Int))) ↔
        (u, v) ∈ es := by
      intro u hu v hv
      rw [List.mem_map]
      constructor
      · rintro ⟨e, he, hh⟩
        simp only [Prod.mk.injEq] at hh
        have e1 := numOf_inj (hends e he).1 (by exact_mod_cast hh.1)
        have e2 := numOf_inj (hends e he).2 (by exact_mod_cast hh.2)
        rw [← e1, ← e2]; exact he
      · intro he; exact ⟨_, he, rfl⟩
    rw [Bool.eq_iff_iff, h4, hmem u hu v hv, hmem v hv u hu, hes]

end

/-! ### Cases -/

example : GdimText "c a triangle\np edge 3 3\ne 1 2\ne 2 3\n\ne 1 3\n".toList 3 [(1, 2), (2, 3), (1, 3)] := by
  refine ⟨⟨"p edge 3 3".toList, by decide, "p".toList, "3".toList, "3".toList, by decide, by decide, by decide⟩, ?_⟩
  show List.Forall₂ ELine ["e 1 2".toList, "e 2 3".toList, "e 1 3".toList] _
  refine .cons ⟨"e".toList, "1".toList, "2".toList, by decide, by decide, by decide⟩ (.cons ⟨"e".toList, "2".toList, "3".toList, by decide, by decide, by decide⟩ (.cons ?_ .nil))
  exact ⟨"e".toList, "1".toList, "3".toList, by decide, by decide, by decide⟩

/-- **C73, vertices out of range.** A file announcing two vertices is accepted although its edge ends in vertex 5, which becomes a vertex. -/
theorem C73_out_of_range : ∃ G, readGdim false "p edge 2 1\ne 1 5\n".toList = pure G ∧ G.nodes = [1, 2, 5] := ⟨_, rfl, by decide⟩

/-- **C73 refuted for names of more lines.** -/
theorem C73_dimacs_refuted : ∃ G, readGdim false "c a graph\nc edges below\np edge 2 1\ne 1 2\n".toList = pure G ∧
    readGdim false (writeGdim G G.edges) = raise .valueError := ⟨_, rfl, rfl⟩

end NDP.Cnfgen
