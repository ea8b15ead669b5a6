import Verif.Proofs.DrawWorkers
import Verif.Props.Draw
/-
  C45 with any number of workers: the drawing is incomplete (`C45_workers_not_drawn`), but what is drawn is right.
-/
namespace NDP
open Spec SetObj
variable {H : Type} [DecidableEq H] {hash : Str → H} {a : Args}

/-- **C45 for any number of workers (partial: not everything is drawn).** Whatever the schedule and whichever workers fail, in a run without the global DB:
the nodes drawn are recorded ones, each declared once, the first of them the root; an arrow joins drawn nodes or leads to a drawn `T` or `F`; if `T` is drawn
the answer is satisfiable; the nodes turned red are those drawn that two arrows enter (for the root, one); a drawn node has no arrows, or those of a formula
with its digest; the labels are those of C45; no node has more arrows than it has recorded edges. -/
theorem C45_workers_drawing_partial (ha : Local a) {env : EnvChoice}
    (hf : a.useRuntimeDb = true → env.mainFails = false) {g : Gdb H} {F : Cnf} (hF : Proper F) (hne : F ≠ [])
    {root : SetObj H} (h : Input F root) {rep : Report H} {d : List (Dot H)}
    (hrun : solveDot hash a env g root = pure (rep, d)) :
    ∃ r, (drawnNodes d).head? = some r ∧ (∃ s, prepareRoot hash a root = pure (s, r)) ∧
      (∀ x ∈ drawnNodes d, x ∈ rep.nodesChildren.keys) ∧ (drawnNodes d).Nodup ∧
      (∀ p c, Dot.edge p c ∈ d → p ∈ drawnNodes d ∧ c ∈ drawnNodes d) ∧
      (∀ p t, Dot.edgeConst p t ∈ d → p ∈ drawnNodes d ∧ (t = ['T'] ∨ t = ['F'])) ∧
      (∀ t, Dot.const t ∈ d ↔ ∃ p, Dot.edgeConst p t ∈ d) ∧
      (Dot.const ['T'] ∈ d → rep.isSat = true) ∧
      (∀ c, c ∈ redMarks d ↔ c ∈ drawnNodes d ∧ 2 ≤ arrowsInto d c + if c = r then 1 else 0) ∧
      (∀ x ∈ drawnNodes d, arrowsFrom d x = [] ∨ ArrowsOf hash (modeBelow a.mode) x (arrowsFrom d x)) ∧
      (∀ x b t i, Dot.node x b t (some i) ∈ d → LabelOf hash (modeBelow a.mode) F x b t i) ∧
      (∀ x b t, Dot.node x b t none ∈ d → ∃ B N, b = textOf B ∧ SameClauses B F ∧ t = textOf N ∧ NormalForm a.mode F N ∧ x = hash t ∧ x = r) ∧
      (∀ x ∈ drawnNodes d, nodesAt (arrowsFrom d x) = edgesOf rep x ∨ (nodesAt (arrowsFrom d x)).length < (edgesOf rep x).length) ∧
      (a.thief = false → NoCollisions hash a root → ∀ x ∈ drawnNodes d, arrowsFrom d x = [] ∨ nodesAt (arrowsFrom d x) = edgesOf rep x) := by
  have hf' : a.useRuntimeDb = true ∨ a.useGlobalDb = true → env.mainFails = false := by
    rintro (h | h)
    · exact hf h
    · rw [ha.gdb] at h; simp at h
  have hl := h.loaded hF hne
  obtain ⟨s, k, b, t, hb, hs, ht, hht, hid', hor⟩ := solveDot_cases hf' hrun
  obtain ⟨s', ps', hs', hr, hres', hrep', hnf, _⟩ := solveSet_graph (ha := ha) hf hF hne h (solveDot_report hrun)
  have e := (M.pure_inj _ _).1 (hs.symm.trans hs')
  simp only [Prod.mk.injEq] at e
  obtain ⟨rfl, rfl⟩ := e
  rcases hor with ⟨rfl, e⟩ | ⟨seen, ps, hps, hseen, e1, e2⟩
  · have h1 := hres'.graph.rootMem
    rw [← hrep'.nodesChildren, e] at h1
    simp [Dict.keys] at h1
  obtain ⟨ps0, l, hw⟩ := runMainDot_workers hash a (inputMode a) ha.gdb seen g (maxThreads env.cpu a) hF hr hid' hht hps
  have hinv := hw.draw
  have hnd : (drawnNodes d).Nodup := by rw [hinv.nodes]; exact hinv.nd
  have harr : ∀ x ∈ drawnNodes d, (∃ y ∈ l, hid hash y = x ∧ arrowsFrom d x = []) ∨ ((∀ y ∈ l, hid hash y ≠ x) ∧ ArrowsOf hash (inputMode a) x (arrowsFrom d x)) := by
    intro x hx
    rw [hinv.nodes] at hx
    by_cases hq : ∃ y ∈ l, hid hash y = x
    · obtain ⟨y, hy, rfl⟩ := hq
      exact .inl ⟨y, hy, rfl, hw.loc.todo y hy⟩
    · refine .inr ⟨fun y hy e => hq ⟨y, hy, e⟩, ?_⟩
      rcases hw.loc.done x hx with h1 | h1
      · exact absurd h1 hq
      · exact h1
  refine ⟨hid hash s, hinv.head, ⟨s, hs⟩, ?_, hnd, ?_, ?_, hinv.constT, ?_, ?_, ?_, ?_, ?_, ?_, ?_⟩
  · intro x hx
    rw [hinv.nodes] at hx
    obtain ⟨ks, hks⟩ := Dict.exists_get?_of_mem hx
    obtain ⟨ks', hks', _⟩ := hw.ext x ks hks
    rw [e1]
    exact Dict.mem_keys_of_get? hks'
  · intro p c hm
    rw [hinv.nodes]
    exact ⟨hinv.src p c hm, hinv.dst p c hm⟩
  · intro p t' hm
    refine ⟨?_, hinv.const p t' hm⟩
    by_contra hp
    rw [hinv.nodes] at hp
    have h1 : arrowsFrom d p = [] := hw.src p hp
    have h2 : Target.text t' ∈ arrowsFrom d p := by
      unfold arrowsFrom
      exact List.mem_filterMap.2 ⟨_, hm, by simp⟩
    rw [h1] at h2
    simp at h2
  · intro hT
    rw [e2]
    exact hw.sat (hinv.sat.1 hT)
  · intro c
    have hc := hinv.cnt c
    constructor
    · intro hm
      have hd := hinv.red c hm
      rw [← hinv.nodes] at hd
      refine ⟨hd, ?_⟩
      rw [List.count_eq_one_of_mem hnd hd] at hc
      have : 0 < (redMarks d).count c := List.count_pos_iff.2 hm
      omega
    · rintro ⟨hd, h2'⟩
      rw [List.count_eq_one_of_mem hnd hd] at hc
      exact List.count_pos_iff.1 (by omega)
  · intro x hx
    rw [← inputMode_eq]
    rcases harr x hx with ⟨_, _, _, h1⟩ | ⟨_, h1⟩
    · exact .inl h1
    · exact .inr h1
  · intro x b' t' i hm
    rw [← inputMode_eq]
    exact hw.loc.lab x b' t' i hm
  · intro x b' t' hm
    obtain ⟨rfl, rfl⟩ := hw.root x b' t' hm
    have hx : x = hash t' := hinv.lab ha.gdb x b' t' none hm
    have hN : t' = textOf (raws s.clauses) := by
      rw [← bodyStr_text hr.tracks.node.cne]
      exact (M.pure_inj _ _).1 (ht.symm.trans (toStr_ok hr.tracks.node.value hr.tracks.node.ne))
    have hpre := loaded_pre hl
    refine ⟨raws root.clauses, raws s.clauses, ?_, h.same, hN, ?_, hx, ?_⟩
    · rw [← bodyStr_text hpre.cne]
      exact (M.pure_inj _ _).1 (hb.symm.trans (toStr_ok hl.value hl.ne))
    · obtain ⟨⟨ρ, h1, h2⟩, h3, h4, h5⟩ := hnf
      exact ⟨⟨ρ, h1, h2.trans h.same⟩, h3, h4, h5⟩
    · rw [hx, ← hht]
  · intro x hx
    rw [hinv.kids x]
    rw [hinv.nodes] at hx
    obtain ⟨ks, hks⟩ := Dict.exists_get?_of_mem hx
    obtain ⟨ks', hks', ho⟩ := hw.ext x ks hks
    unfold edgesOf
    rw [e1, hks, hks']
    rcases ho with rfl | ho
    · exact .inl rfl
    · exact .inr ho
  · intro hth hcoll x hx
    rcases harr x hx with ⟨_, _, _, h1⟩ | ⟨hq, _⟩
    · exact .inl h1
    · right
      rw [hinv.nodes] at hx
      obtain ⟨ks, u, f1, f2, f3, f4⟩ := hw.inv.expanded hash a (inputMode a) hx hq
      obtain ⟨ks', v, g1, g2, g3, g4⟩ := hw.mono x ⟨ks, u, f1, f2, f3, f4⟩
      have hcs : NoColl hash a (inputMode a) s := hcoll s _ hs
      have hraw := hcs u v f2 g2 (by rw [f3, g3])
      have h0 := hr.tracks
      have := Kids.congr hash a (inputMode a) hth hF (f2.tracks hash a (inputMode a) hF h0) (g2.tracks hash a (inputMode a) hF h0) hraw f4
      have hk := Kids.unique hash a (inputMode a) this g4
      rw [hinv.kids x]
      unfold edgesOf
      rw [e1, f1, g1, hk]

/-- Two workers: three nodes of the seven are drawn, and what is said above holds of them. -/
example : ∃ (rep : Report Str) (d : List (Dot Str)),
    solveDot (fun s => s) { threads := 2 } { sched := [true, true, true] } [] (mkSet drawCnf) = pure (rep, d) ∧
    (drawnNodes d).length = 3 ∧ rep.nodesChildren.keys.length = 7 ∧
    ∀ x ∈ drawnNodes d, arrowsFrom d x = [] ∨ nodesAt (arrowsFrom d x) = edgesOf rep x := by
  obtain ⟨rep, d, h1, h2, h3, _⟩ := C45_workers_not_drawn
  have hI : Input drawCnf (mkSet (H := Str) drawCnf) := input_mkSet draw_proper (by simp [drawCnf])
  obtain ⟨_, _, _, _, _, _, _, _, _, _, _, _, _, _, h⟩ := C45_workers_drawing_partial (a := { threads := 2 }) ⟨rfl, rfl⟩
    (fun _ => rfl) draw_proper (by simp [drawCnf]) hI h1
  exact ⟨rep, d, h1, h3, h2, h rfl (noCollisions_of_injective (fun _ _ h => h) _ hI draw_proper (by simp [drawCnf]))⟩

end NDP
