import Verif.Proofs.DrawExec
/-
  C45: the drawing of a run (`-g`).
-/
namespace NDP
open Spec SetObj
variable {H : Type} [DecidableEq H] {hash : Str → H} {a : Args}

/-- **C45** Drawing changes nothing else: with `-g` a run ends, fails and reports exactly as without it, for all inputs,
databases, workers and schedules. -/
theorem C45_drawing_no_effect (hash : Str → H) (a : Args) (env : EnvChoice) (g : Gdb H) (root : SetObj H) :
    (Prod.fst <$> solveDot hash a env g root) = solveSet hash a env g root :=
  solveDot_fst hash a env g root

theorem solveDot_report {env : EnvChoice} {g : Gdb H} {root : SetObj H} {rep : Report H} {d : List (Dot H)}
    (hrun : solveDot hash a env g root = pure (rep, d)) : solveSet hash a env g root = pure rep := by
  rw [← C45_drawing_no_effect, hrun]
  rfl

/-- What a run with `-g` consists of. -/
theorem solveDot_cases {env : EnvChoice} {g : Gdb H} {root : SetObj H} {rep : Report H} {d : List (Dot H)}
    (hf : a.useRuntimeDb = true ∨ a.useGlobalDb = true → env.mainFails = false)
    (hrun : solveDot hash a env g root = pure (rep, d)) :
    ∃ s h b t, root.toStr = pure b ∧ prepareRoot hash a root = pure (s, h) ∧ s.toStr = pure t ∧ h = hash t ∧ s.id = some h ∧
      ((d = [] ∧ rep.nodesChildren = []) ∨
        ∃ seen ps, runMainDot hash a (inputMode a) seen g (maxThreads env.cpu a) env.fails env.sched
            [Dot.node h b t none] s = pure (ps, d) ∧
          (a.useGlobalDb = false → a.gdbNoMem = false → seen = []) ∧
          rep.nodesChildren = ps.nodesChildren ∧ rep.isSat = ps.isSat) := by
  unfold solveDot at hrun
  obtain ⟨b, hb, hrun⟩ := M.bind_eq_pure.1 hrun
  obtain ⟨⟨s, h⟩, hs, hrun⟩ := M.bind_eq_pure.1 hrun
  obtain ⟨t, ht, hht, hid⟩ := prepareRoot_toStr hash a hs
  refine ⟨s, h, b, t, hb, hs, ht, hht, hid, ?_⟩
  have hmf : ((a.useRuntimeDb || a.useGlobalDb) && env.mainFails) = false := by
    cases h1 : a.useRuntimeDb <;> cases h2 : a.useGlobalDb
    · rfl
    · rw [hf (Or.inr h2)]; rfl
    · rw [hf (Or.inl h1)]; rfl
    · rw [hf (Or.inr h2)]; rfl
  have hseen : a.useGlobalDb = false → a.gdbNoMem = false →
      (if (a.useGlobalDb && !a.gdbNoMem) = true then g.loadUnsolved s.clauses.length ++
        (if (a.useGlobalDb && !a.gdbNoMem) = true then g.loadSolved s.clauses.length else []) else []) = [] := by
    intro h1 h2
    rw [h1]; rfl
  simp only at hrun
  generalize (if (a.useGlobalDb && !a.gdbNoMem) = true then g.loadSolved s.clauses.length else []) = solved at hrun hseen
  generalize (if (a.useGlobalDb && !a.gdbNoMem) = true then g.loadUnsolved s.clauses.length ++ solved else []) = seen at hrun hseen
  generalize (if a.gdbNoMem = true then g.isSolved h else decide (h ∈ solved)) = isS at hrun
  cases isS
  · right
    simp only [ht, M.pure_bind, Bool.not_false, if_true, hmf, Bool.false_eq_true, if_false] at hrun
    obtain ⟨⟨ps, d'⟩, hps, hrun⟩ := M.bind_eq_pure.1 hrun
    simp only at hrun
    split at hrun
    · have e := (M.pure_inj _ _).1 hrun
      simp only [Prod.mk.injEq] at e
      obtain ⟨rfl, rfl⟩ := e
      exact ⟨seen, ps, hps, hseen, rfl, rfl⟩
    · obtain ⟨⟨st, red⟩, _, hrun⟩ := M.bind_eq_pure.1 hrun
      have e := (M.pure_inj _ _).1 hrun
      simp only [Prod.mk.injEq] at e
      obtain ⟨rfl, rfl⟩ := e
      exact ⟨seen, ps, hps, hseen, rfl, rfl⟩
  · left
    simp only [Bool.not_true, Bool.false_eq_true, if_false] at hrun
    split at hrun
    · exact absurd hrun (M.raise_ne_pure _ _)
    · have e := (M.pure_inj _ _).1 hrun
      simp only [Prod.mk.injEq] at e
      obtain ⟨rfl, rfl⟩ := e
      exact ⟨rfl, rfl⟩

/-- **C45** The drawing shows the node graph of the run (one process, any database): the nodes drawn are the recorded ones, each
declared once, the first of them the root; the arrows between nodes are the recorded edges, in order; all other arrows lead
to a `T` or an `F`, which are drawn exactly when an arrow leads there; `T` is drawn exactly when the answer is satisfiable; the
nodes turned red are those drawn that two arrows enter (for the root, one).  Nothing is drawn exactly when the set was found
solved in the global DB, in which case no node is recorded either. -/
theorem C45_drawing_shows_the_graph {env : EnvChoice} (h0 : maxThreads env.cpu a = 0)
    (hf : a.useRuntimeDb = true ∨ a.useGlobalDb = true → env.mainFails = false) {g : Gdb H} {root : SetObj H}
    {rep : Report H} {d : List (Dot H)} (hrun : solveDot hash a env g root = pure (rep, d)) :
    (d = [] ∧ rep.nodesChildren = []) ∨
    ∃ r, (drawnNodes d).head? = some r ∧ (∃ s, prepareRoot hash a root = pure (s, r)) ∧
      drawnNodes d = rep.nodesChildren.keys ∧ (drawnNodes d).Nodup ∧
      (∀ h, nodesAt (arrowsFrom d h) = edgesOf rep h) ∧
      (∀ p c, Dot.edge p c ∈ d → p ∈ drawnNodes d ∧ c ∈ drawnNodes d) ∧
      (∀ p t, Dot.edgeConst p t ∈ d → t = ['T'] ∨ t = ['F']) ∧
      (∀ t, Dot.const t ∈ d ↔ ∃ p, Dot.edgeConst p t ∈ d) ∧
      (Dot.const ['T'] ∈ d ↔ rep.isSat = true) ∧
      (∀ c, c ∈ redMarks d ↔ c ∈ drawnNodes d ∧ 2 ≤ arrowsInto d c + if c = r then 1 else 0) := by
  obtain ⟨s, h, b, t, _, hs, _, hht, hid, hor⟩ := solveDot_cases hf hrun
  rcases hor with hor | ⟨seen, ps, hps, _, e1, e2⟩
  · exact Or.inl hor
  · right
    rw [h0] at hps
    obtain ⟨h1, h2, h3, h4, h5, h6, h7, h8, h9, h10, h11, h12, h13, h14⟩ := runMainDot_inv hash a (inputMode a) seen g hid hht hps
    rw [← h1] at h2 h4 h5 h6
    refine ⟨h, h14, ⟨s, hs⟩, by rw [e1]; exact h1, h2, ?_, fun p c hm => ⟨h4 p c hm, h5 p c hm⟩, h12, h13, by rw [e2]; exact h7, ?_⟩
    · intro k
      rw [h3 k, edgesOf, e1]
    · intro c
      have hc := h8 c
      constructor
      · intro hm
        have hd := h6 c hm
        refine ⟨hd, ?_⟩
        rw [List.count_eq_one_of_mem h2 hd] at hc
        have : 0 < (redMarks d).count c := List.count_pos_iff.2 hm
        omega
      · rintro ⟨hd, h2'⟩
        rw [List.count_eq_one_of_mem h2 hd] at hc
        exact List.count_pos_iff.1 (by omega)

/-- What a drawing of one process without the global DB says about the formula. -/
structure ShowsFormula (hash : Str → H) (a : Args) (F : Cnf) (rep : Report H) (d : List (Dot H)) : Prop where
  /-- Every drawn node has no arrows or those of a formula with its digest … -/
  arrows : ∀ h ∈ drawnNodes d, arrowsFrom d h = [] ∨ ArrowsOf hash (modeBelow a.mode) h (arrowsFrom d h)
  /-- … and always the latter unless the run was cut short by `-e`. -/
  complete : Complete a rep → ∀ h ∈ drawnNodes d, ArrowsOf hash (modeBelow a.mode) h (arrowsFrom d h)
  label : ∀ h b t i, Dot.node h b t (some i) ∈ d → LabelOf hash (modeBelow a.mode) F h b t i
  rootLabel : ∀ h b t, Dot.node h b t none ∈ d →
    ∃ B N, b = textOf B ∧ SameClauses B F ∧ t = textOf N ∧ NormalForm a.mode F N ∧ h = hash t ∧ (drawnNodes d).head? = some h

/-- **C45** The drawing shows the truth about the formula (one process, no global DB): the arrows leaving a node are those of
its two branches, `T` and `F` included; the label of a node shows its text, the formula it is the normal form of, and names
and values under which it is what is left of the input; the root's label shows the input and its normal form. -/
theorem C45_drawing_is_true (ha : Local a) {env : EnvChoice} (h0 : maxThreads env.cpu a = 0)
    (hf : a.useRuntimeDb = true → env.mainFails = false) {g : Gdb H} {F : Cnf} (hF : Proper F) (hne : F ≠ [])
    {root : SetObj H} (h : Input F root) {rep : Report H} {d : List (Dot H)}
    (hrun : solveDot hash a env g root = pure (rep, d)) : ShowsFormula hash a F rep d := by
  have hf' : a.useRuntimeDb = true ∨ a.useGlobalDb = true → env.mainFails = false := by
    rintro (h | h)
    · exact hf h
    · rw [ha.gdb] at h; simp at h
  have hl := h.loaded hF hne
  obtain ⟨s, k, b, t, hb, hs, ht, hht, hid', hor⟩ := solveDot_cases hf' hrun
  rcases hor with ⟨rfl, e⟩ | ⟨seen, ps, hps, hseen, e1, e2⟩
  · exact ⟨by simp [drawnNodes], by simp [drawnNodes], by simp, by simp⟩
  rw [h0] at hps
  obtain ⟨s', ps', hs', hr, _, _, hnf, _⟩ := solveSet_graph (ha := ha) hf hF hne h (solveDot_report hrun)
  have e := (M.pure_inj _ _).1 (hs.symm.trans hs')
  simp only [Prod.mk.injEq] at e
  obtain ⟨rfl, rfl⟩ := e
  have hinv := runMainDot_inv hash a (inputMode a) seen g hid' hht hps
  obtain ⟨k1, k2, k3, k4⟩ := runMainDot_local hash a (inputMode a) ha.gdb seen g hF hr hps
  rw [inputMode_eq] at k1 k2 k3
  refine ⟨?_, ?_, k3, ?_⟩
  · rw [hinv.nodes]; exact k1
  · intro hc
    rw [hinv.nodes]
    apply k2
    intro hx
    apply hc
    rw [e2]; exact hx
  · intro x b' t' hm
    obtain ⟨rfl, rfl⟩ := k4 x b' t' hm
    have hx : x = hash t' := hinv.lab ha.gdb x b' t' none hm
    have hN : t' = textOf (raws s.clauses) := by
      rw [← bodyStr_text hr.tracks.node.cne]
      exact (M.pure_inj _ _).1 (ht.symm.trans (toStr_ok hr.tracks.node.value hr.tracks.node.ne))
    have hpre := loaded_pre hl
    refine ⟨raws root.clauses, raws s.clauses, ?_, h.same, hN, ?_, hx, ?_⟩
    · rw [← bodyStr_text hpre.cne]
      exact (M.pure_inj _ _).1 (hb.symm.trans (toStr_ok hl.value hl.ne))
    · obtain ⟨⟨ρ, h1, h2⟩, h3, h4, h5⟩ := hnf
      exact ⟨⟨ρ, h1, h2.trans h.same⟩, h3, h4, h5⟩
    · rw [hinv.head, hx, ← hht]

/-! ### the figures printed with the drawing -/

/-- The nodes arrows lead to. -/
def arrowHeads (d : List (Dot H)) : List H := d.filterMap fun | .edge _ c => some c | _ => none

theorem arrowsInto_eq (d : List (Dot H)) (c : H) : arrowsInto d c = (arrowHeads d).count c := by
  unfold arrowsInto arrowHeads
  congr 2

theorem sum_map_ite_eq {L : List H} (hnd : L.Nodup) {p : H} (hp : p ∈ L) (n : Nat) :
    (L.map fun h => if p = h then n else 0).sum = n := by
  induction L with
  | nil => simp at hp
  | cons x L ih =>
    rw [List.nodup_cons] at hnd
    rw [List.map_cons, List.sum_cons]
    by_cases hx : p = x
    · subst hx
      have : (L.map fun h => if p = h then n else 0) = L.map fun _ => 0 := by
        apply List.map_congr_left
        intro y hy
        rw [if_neg]
        rintro rfl
        exact hnd.1 hy
      rw [this]; simp
    · rw [if_neg hx, ih hnd.2 (by simpa [hx] using hp), Nat.zero_add]

omit [DecidableEq H] in
theorem sum_map_add {L : List H} (f g : H → Nat) : (L.map fun h => f h + g h).sum = (L.map f).sum + (L.map g).sum := by
  induction L with
  | nil => rfl
  | cons x L ih => simp only [List.map_cons, List.sum_cons, ih]; omega

theorem sum_arrows {L : List H} (hnd : L.Nodup) (f : List H → Nat) (f0 : f [] = 0) (fadd : ∀ x y, f (x ++ y) = f x + f y) :
    ∀ d : List (Dot H), (∀ p c, Dot.edge p c ∈ d → p ∈ L) →
      (L.map fun h => f (nodesAt (arrowsFrom d h))).sum = f (arrowHeads d) := by
  intro d
  induction d with
  | nil => intro _; simp [arrowsFrom, nodesAt, arrowHeads, f0]
  | cons x d ih =>
    intro hs
    have ih := ih (fun p c hm => hs p c (List.mem_cons_of_mem _ hm))
    cases x with
    | edge p c =>
      have hp := hs p c (by simp)
      have e : ∀ h, f (nodesAt (arrowsFrom (Dot.edge p c :: d) h)) =
          (if p = h then f [c] else 0) + f (nodesAt (arrowsFrom d h)) := by
        intro h
        by_cases hh : p = h
        · have : nodesAt (arrowsFrom (Dot.edge p c :: d) h) = [c] ++ nodesAt (arrowsFrom d h) := by
            simp [arrowsFrom, nodesAt, hh]
          rw [this, fadd, if_pos hh]
        · have : nodesAt (arrowsFrom (Dot.edge p c :: d) h) = nodesAt (arrowsFrom d h) := by
            simp [arrowsFrom, nodesAt, hh]
          rw [this, if_neg hh, Nat.zero_add]
      simp only [e]
      rw [sum_map_add, ih, sum_map_ite_eq hnd hp]
      exact (fadd [c] _).symm
    | edgeConst p t =>
      have e : ∀ h, nodesAt (arrowsFrom (Dot.edgeConst p t :: d) h) = nodesAt (arrowsFrom d h) := by
        intro h
        by_cases hh : p = h <;> simp [arrowsFrom, nodesAt, hh]
      simp only [e]
      rw [ih]
      rfl
    | node h b t i => exact ih
    | again h => exact ih
    | const t => exact ih

/-- **C45** The statistics printed for a run are those of its drawing (one process, no global DB, statistics on): the unique nodes
are the nodes drawn, the redundant hits the red marks, the redundant nodes the nodes turned red. -/
theorem C45_figures_match (ha : Local a) (hst : a.noStats = false) {env : EnvChoice} (h0 : maxThreads env.cpu a = 0)
    (hf : a.useRuntimeDb = true → env.mainFails = false) {g : Gdb H} {F : Cnf} (hF : Proper F) (hne : F ≠ [])
    {root : SetObj H} (h : Input F root) (hcoll : NoCollisions hash a root) {rep : Report H} {d : List (Dot H)}
    (hrun : solveDot hash a env g root = pure (rep, d)) :
    rep.uniques = (drawnNodes d).length ∧ rep.redundantHits = (redMarks d).length ∧
      rep.redundants = (dedup (redMarks d)).length := by
  have hf' : a.useRuntimeDb = true ∨ a.useGlobalDb = true → env.mainFails = false := by
    rintro (h | h)
    · exact hf h
    · rw [ha.gdb] at h; simp at h
  have hrun' := solveDot_report hrun
  obtain ⟨s, ps, hs, hr, hres, hrep, hnf, hreach, _⟩ := solveSet_graph (ha := ha) hf hF hne h hrun'
  obtain ⟨_, hcg, st0, k1, k2, k3, k4⟩ := hrep.stats hst
  obtain ⟨rank, hrk⟩ := graph_rank hF hr.tracks (hcoll s _ hs) hres.graph
  obtain ⟨hall, _⟩ := C18_stats_exact ha hst hf hF hne h hcoll hrun'
  have hroot : hid hash s ∈ rep.nodesChildren.keys := by rw [hrep.nodesChildren]; exact hres.graph.rootMem
  obtain ⟨st, V, q1, ⟨hVn, hV⟩, q3, q4, q5⟩ := hall _ hroot
  rw [k1] at q1
  cases q1
  have hedge : IsEdge rep = Edge ps.nodesChildren := by
    funext x y; unfold IsEdge Edge; rw [hrep.nodesChildren]
  -- `V` is the list of drawn nodes, up to order
  rcases C45_drawing_shows_the_graph h0 hf' hrun with ⟨_, e⟩ | ⟨r, hd1, ⟨s', hs'⟩, hd3, hd4, hd5, hd6, _, _, _, hred⟩
  · rw [e] at hroot; simp [Dict.keys] at hroot
  have er : r = hid hash s := by
    have e := (M.pure_inj _ _).1 (hs'.symm.trans hs)
    simp only [Prod.mk.injEq] at e
    exact e.2
  have hVk : ∀ y, y ∈ V ↔ y ∈ drawnNodes d := by
    intro y
    rw [hd3, hV]
    constructor
    · intro hy
      induction hy with
      | refl => exact hroot
      | tail _ hyz _ =>
        obtain ⟨ks, e1, e2⟩ := hyz
        rw [hrep.nodesChildren] at e1 ⊢
        exact hres.graph.closed _ ks _ e1 e2
    · intro hy
      rw [hrep.nodesChildren] at hy
      rw [hedge]
      exact hreach h0 y hy
  have hperm : V.Perm (drawnNodes d) := (List.perm_ext_iff_of_nodup hVn hd4).2 hVk
  have hsrc : ∀ p c, Dot.edge p c ∈ d → p ∈ drawnNodes d := fun p c hm => (hd6 p c hm).1
  -- arrows into a node
  have hin : ∀ y, inDegree rep V y = arrowsInto d y := by
    intro y
    unfold inDegree
    rw [arrowsInto_eq]
    rw [(hperm.map _).sum_nat, ← sum_arrows hd4 (fun l => l.count y) (by simp) (by simp) d hsrc]
    simp only [hd5]
  have hout : (V.map fun y => (edgesOf rep y).length).sum = (arrowHeads d).length := by
    rw [(hperm.map _).sum_nat, ← sum_arrows hd4 List.length rfl (by simp) d hsrc]
    simp only [hd5]
  -- nothing leads to the root
  have hrootIn : arrowsInto d (hid hash s) = 0 := by
    rw [← hin]
    unfold inDegree
    rw [List.sum_eq_zero_iff_forall_eq_nat]
    intro n hn
    obtain ⟨x, hx, rfl⟩ := List.mem_map.1 hn
    rw [List.count_eq_zero]
    intro hm
    unfold edgesOf at hm
    cases hg : rep.nodesChildren.get? x with
    | none => rw [hg] at hm; simp at hm
    | some ks =>
      rw [hg] at hm
      simp only [Option.getD_some] at hm
      rw [hrep.nodesChildren] at hg
      have h1 := hrk x ks _ hg hm
      have hre : Relation.ReflTransGen (Edge ps.nodesChildren) (hid hash s) x := by
        rw [← hedge]; exact (hV x).1 hx
      have : rank x ≤ rank (hid hash s) := by
        clear h1 hg hm hn hx
        induction hre with
        | refl => exact Nat.le_refl _
        | tail _ hyz ih =>
          obtain ⟨ks, e1, e2⟩ := hyz
          exact Nat.le_trans (Nat.le_of_lt (hrk _ ks _ e1 e2)) ih
      omega
  -- totals
  obtain ⟨s2, k, b, t, hb, hs2, ht, hht, hid', hor⟩ := solveDot_cases hf' hrun
  have hcnt : ∀ c, (drawnNodes d).count c + (redMarks d).count c = arrowsInto d c + if c = hid hash s then 1 else 0 := by
    rcases hor with ⟨rfl, e⟩ | ⟨seen, ps2, hps, _⟩
    · simp [drawnNodes] at hd1
    · rw [h0] at hps
      have e := (M.pure_inj _ _).1 (hs2.symm.trans hs)
      simp only [Prod.mk.injEq] at e
      rw [← e.2]
      exact (runMainDot_inv hash a (inputMode a) seen g hid' hht hps).cnt
  have htot : (drawnNodes d ++ redMarks d).Perm (hid hash s :: arrowHeads d) := by
    rw [List.perm_iff_count]
    intro c
    rw [List.count_append, hcnt c, List.count_cons, arrowsInto_eq]
    by_cases hc : c = hid hash s
    · simp [hc]
    · have : ¬ hid hash s = c := fun e => hc e.symm
      simp [hc, this]
  have hlen := htot.length_eq
  rw [List.length_append, List.length_cons, ← hout] at hlen
  have hVlen : V.length = (drawnNodes d).length := hperm.length_eq
  have hpos : 0 < V.length := List.length_pos_of_mem ((hV _).2 .refl)
  refine ⟨by rw [k2, q3, hVlen], by rw [k4]; omega, ?_⟩
  rw [k3, q4]
  apply List.Perm.length_eq
  refine (List.perm_ext_iff_of_nodup (hVn.filter _) (nodup_dedup _)).2 ?_
  intro y
  rw [List.mem_filter, mem_dedup, hred, hVk, hin, er]
  simp only [decide_eq_true_eq]
  refine and_congr_right fun hy => ?_
  by_cases hyr : y = hid hash s
  · subst hyr; rw [hrootIn]; simp
  · rw [if_neg hyr]; simp

/-! ### workers, and a concrete run -/

/-- Five clauses over four variables. -/
def drawCnf : Cnf := [[1, 2, 3], [-1, 2, 4], [-1, -2, 3], [1, -3, 4], [1, -2, -4]]

/-- The root, the graph and the drawing of a run with `t` workers. -/
def drawRun (t : Nat) : Option (Str × PS Str × List (Dot Str)) :=
  match prepareRootF (fun s => s) { threads := t } 40 (mkSet (H := Str) drawCnf) with
  | some (.ok (s, h)) =>
    match runMainDotF (fun s => s) { threads := t } (inputMode { threads := t }) 40 [] [] (maxThreads 4 { threads := t }) (fun _ => false)
        [true, true, true] [.node h (textOf drawCnf) h none] s with
    | some (.ok (ps, d)) => some (h, ps, d)
    | _ => none
  | _ => none

theorem draw_proper : Proper drawCnf := by unfold Proper drawCnf; decide

/-- A checked run is a run of the program. -/
theorem drawRun_sound {t : Nat} (P : PS Str → List (Dot Str) → Bool)
    (hc : (match drawRun t with | some (_, ps, d) => P ps d | none => false) = true) :
    ∃ rep d ps, solveDot (fun s => s) { threads := t } { sched := [true, true, true] } [] (mkSet drawCnf) = pure (rep, d) ∧
      rep.nodesChildren = ps.nodesChildren ∧ rep.isSat = ps.isSat ∧ P ps d = true := by
  unfold drawRun at hc
  cases h1 : prepareRootF (fun s => s) { threads := t } 40 (mkSet (H := Str) drawCnf) with
  | none => rw [h1] at hc; simp at hc
  | some r =>
    cases r with
    | error e => rw [h1] at hc; simp at hc
    | ok p =>
      obtain ⟨s, h⟩ := p
      rw [h1] at hc
      simp only at hc
      cases h2 : runMainDotF (fun s => s) { threads := t } (inputMode { threads := t }) 40 [] [] (maxThreads 4 { threads := t }) (fun _ => false)
        [true, true, true] [.node h (textOf drawCnf) h none] s with
      | none => rw [h2] at hc; simp at hc
      | some r =>
        cases r with
        | error e => rw [h2] at hc; simp at hc
        | ok r =>
          obtain ⟨ps, d⟩ := r
          rw [h2] at hc
          simp only at hc
          have hs : prepareRoot (fun s => s) { threads := t } (mkSet drawCnf) = pure (s, h) :=
            (prepareRootF_le (fun s => s) { threads := t } 40 _).pure h1
          have hps := runMainDotF_pure (fun s : Str => s) { threads := t } (inputMode { threads := t }) h2
          have hne : drawCnf ≠ [] := by simp [drawCnf]
          have hI : Input drawCnf (mkSet (H := Str) drawCnf) := input_mkSet draw_proper hne
          have hl := hI.loaded draw_proper hne
          obtain ⟨s', hs', hr, _⟩ := prepareRoot_ok (fun s : Str => s) { threads := t } draw_proper hl
          have e := (M.pure_inj _ _).1 (hs.symm.trans hs')
          simp only [Prod.mk.injEq] at e
          obtain ⟨rfl, e2⟩ := e
          obtain ⟨t', ht', hht, -⟩ := prepareRoot_toStr (fun s : Str => s) { threads := t } hs
          have hht : h = t' := hht
          subst hht
          have hb : (mkSet (H := Str) drawCnf).toStr = pure (textOf drawCnf) := by
            rw [toStr_ok hl.value hl.ne, bodyStr_text (loaded_pre hl).cne]
            exact congrArg pure (by decide +kernel)
          have hfst := runMainDot_fst (fun s : Str => s) { threads := t } (inputMode { threads := t }) [] [] (maxThreads 4 { threads := t }) (fun _ => false)
            [true, true, true] [.node h (textOf drawCnf) h none] s
          rw [hps] at hfst
          have hres := runMain_sound (fun s : Str => s) { threads := t } (inputMode { threads := t }) rfl [] [] (maxThreads 4 { threads := t })
            draw_proper hr hfst.symm
          obtain ⟨rep, hrep, hR⟩ := finish_ok (fun s : Str => s) { threads := t } hres
          refine ⟨rep, d, ps, ?_, hR.nodesChildren, hR.isSat, hc⟩
          unfold finish at hrep
          simp only [Bool.false_eq_true, if_false] at hrep
          obtain ⟨⟨st, red⟩, g1, hrep⟩ := M.bind_eq_pure.1 hrep
          unfold solveDot
          rw [hb, M.pure_bind, hs, M.pure_bind]
          simp only [Bool.false_and, Bool.and_false, Bool.false_eq_true, if_false, List.not_mem_nil, decide_false, Bool.not_false,
            if_true, ht', M.pure_bind, Bool.or_self]
          rw [hps, M.pure_bind]
          simp only
          rw [show h = hid (fun s : Str => s) s from e2, g1, M.pure_bind]
          exact congrArg pure (Prod.ext ((M.pure_inj _ _).1 hrep) rfl)

/-- **C45** is false with workers: what a worker finds is recorded but not drawn.  Here two workers: seven nodes are recorded
and three are drawn, and the answer is satisfiable although no `T` is drawn. -/
theorem C45_workers_not_drawn : ∃ (rep : Report Str) (d : List (Dot Str)),
    solveDot (fun s => s) { threads := 2 } { sched := [true, true, true] } [] (mkSet drawCnf) = pure (rep, d) ∧
    rep.nodesChildren.keys.length = 7 ∧ (drawnNodes d).length = 3 ∧ rep.isSat = true ∧ Dot.const ['T'] ∉ d := by
  obtain ⟨rep, d, ps, h1, h2, h3, h4⟩ := drawRun_sound (t := 2)
    (fun ps d => decide (ps.nodesChildren.keys.length = 7) && decide ((drawnNodes d).length = 3) && ps.isSat &&
      decide (Dot.const ['T'] ∉ d)) (by decide +kernel)
  simp only [Bool.and_eq_true, decide_eq_true_eq] at h4
  exact ⟨rep, d, h1, by rw [h2]; exact h4.1.1.1, h4.1.1.2, by rw [h3]; exact h4.1.2, h4.2⟩

/-- The hypotheses together, with one process: seven nodes drawn, two red marks on one node. -/
example : Local { threads := 1 } ∧ maxThreads 4 { threads := 1 } = 0 ∧ Proper drawCnf ∧
    Input drawCnf (mkSet (H := Str) drawCnf) ∧ NoCollisions (fun s : Str => s) { threads := 1 } (mkSet drawCnf) ∧
    ∃ (rep : Report Str) (d : List (Dot Str)),
      solveDot (fun s => s) { threads := 1 } { sched := [true, true, true] } [] (mkSet drawCnf) = pure (rep, d) ∧
      (drawnNodes d).length = 7 ∧ (redMarks d).length = 2 ∧ (dedup (redMarks d)).length = 1 := by
  have hI : Input drawCnf (mkSet (H := Str) drawCnf) := input_mkSet draw_proper (by simp [drawCnf])
  refine ⟨⟨rfl, rfl⟩, rfl, draw_proper, hI,
    noCollisions_of_injective (fun _ _ h => h) _ hI draw_proper (by simp [drawCnf]), ?_⟩
  obtain ⟨rep, d, ps, h1, h2, h3, h4⟩ := drawRun_sound (t := 1)
    (fun ps d => decide ((drawnNodes d).length = 7) && decide ((redMarks d).length = 2) &&
      decide ((dedup (redMarks d)).length = 1)) (by decide +kernel)
  simp only [Bool.and_eq_true, decide_eq_true_eq] at h4
  exact ⟨rep, d, h1, h4.1.1, h4.1.2, h4.2⟩

end NDP
