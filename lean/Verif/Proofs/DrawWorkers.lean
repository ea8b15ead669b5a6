import Verif.Proofs.DrawRun
/- The drawing of a run with workers: what the main process draws before it starts them. -/
namespace NDP
open Spec SetObj
variable {H : Type} [DecidableEq H] (hash : Str → H) (a : Args) (im : Mode)

/-- Every node keeps its list of edges, or gets a longer one. -/
def Ext (nc nc' : Dict H (List H)) : Prop :=
  ∀ h ks, nc.get? h = some ks → ∃ ks', nc'.get? h = some ks' ∧ (ks' = ks ∨ ks.length < ks'.length)

theorem Ext.refl (nc : Dict H (List H)) : Ext nc nc := fun _ ks h => ⟨ks, h, .inl rfl⟩

theorem Ext.trans {x y z : Dict H (List H)} (h1 : Ext x y) (h2 : Ext y z) : Ext x z := by
  intro h ks hk
  obtain ⟨k1, e1, o1⟩ := h1 h ks hk
  obtain ⟨k2, e2, o2⟩ := h2 h k1 e1
  refine ⟨k2, e2, ?_⟩
  rcases o1 with rfl | o1 <;> rcases o2 with rfl | o2
  · exact .inl rfl
  · exact .inr o2
  · exact .inr o1
  · exact .inr (by omega)

theorem Ext.mergeNodes (nc pnc : Dict H (List H)) : Ext nc (mergeNodes nc pnc) := by
  unfold NDP.mergeNodes
  induction pnc generalizing nc with
  | nil => exact Ext.refl nc
  | cons kv pnc ih =>
    rw [List.foldl_cons]
    refine Ext.trans ?_ (ih _)
    intro h ks hk
    split
    · rename_i l hl
      split
      · exact ⟨ks, hk, .inl rfl⟩
      · rename_i hlen
        by_cases e : kv.1 = h
        · subst e
          rw [hk] at hl
          cases hl
          refine ⟨kv.2, by simp, ?_⟩
          cases ks with
          | nil =>
            by_cases h0 : kv.2 = []
            · exact .inl h0
            · exact .inr (by simpa using List.length_pos_iff.2 h0)
          | cons x ks => right; simp only [List.length_cons] at hlen ⊢; omega
        · exact ⟨ks, by rw [Dict.get?_set_ne _ _ e]; exact hk, .inl rfl⟩
    · rename_i hl
      by_cases e : kv.1 = h
      · subst e; rw [hk] at hl; cases hl
      · exact ⟨ks, by rw [Dict.get?_set_ne _ _ e]; exact hk, .inl rfl⟩

theorem Ext.mergeOne (ps : PS H) (t : Thread H) : Ext ps.nodesChildren (mergeOne ps t).nodesChildren := by
  unfold NDP.mergeOne
  split
  · exact Ext.mergeNodes _ _
  · exact Ext.refl _

theorem Ext.merge (ts : List (Thread H)) (ps : PS H) : Ext ps.nodesChildren (ts.foldl NDP.mergeOne ps).nodesChildren := by
  induction ts generalizing ps with
  | nil => exact Ext.refl _
  | cons t ts ih => rw [List.foldl_cons]; exact (Ext.mergeOne ps t).trans (ih _)

/-- The drawing is that of the main process when it stopped expanding, in the state `ps0`, with `l` still queued; the run ended in `ps`. -/
structure WorkersDraw (R : Cnf) (s : SetObj H) (b t : Str) (ps : PS H) (d : List (Dot H)) (ps0 : PS H) (l : List (SetObj H)) : Prop where
  inv : Inv hash a im R s (hid hash s) ps0 l
  loc : LocalDraw hash im R ps0 d l
  draw : DrawInv hash a (hid hash s) ps0 d
  src : SrcKeys ps0 d
  root : ∀ h b' t', Dot.node h b' t' none ∈ d → b' = b ∧ t' = t
  ext : Ext ps0.nodesChildren ps.nodesChildren
  sat : ps0.isSat = true → ps.isSat = true
  mono : ∀ k, Expanded hash a im s ps0.nodesChildren k → Expanded hash a im s ps.nodesChildren k

theorem runMainDot_workers (hg : a.useGlobalDb = false) (seen : List H) (g : Gdb H) (maxT : Nat) {fails : Nat → Bool}
    {sched : List Bool} {R : Cnf} (hR : Proper R) {s : SetObj H} (hs : Ready hash a R s) (hid' : s.id = some (hid hash s)) {b t : Str}
    (ht : hid hash s = hash t) {ps : PS H} {d : List (Dot H)}
    (hrun : runMainDot hash a im seen g maxT fails sched [.node (hid hash s) b t none] s = pure (ps, d)) :
    ∃ ps0 l, WorkersDraw hash a im R s b t ps d ps0 l := by
  obtain ⟨ps0, h0, hinv, hu, hsat, hnc⟩ := initPS_ok hash a im g 1 hs
  have hne := hs.tracks.ne_nil
  have hstore : hid hash (store a.useRuntimeDb s) = hid hash s := hid_store hash hs.tracks.node _
  have hd0 := DrawInv.init hash a hid' (b := b) ht h0
  unfold runMainDot at hrun
  rw [h0] at hrun
  have hrun : pyWhile (mainStepDot hash a im seen maxT fails sched)
      (({ ps := ps0, gen := decide (0 < maxT) }, [.node (hid hash s) b t none]) : MainSt H × List (Dot H)) = pure (ps, d) := hrun
  refine pyWhile_partial (step := mainStepDot hash a im seen maxT fails sched)
    (fun st => ((∃ l, WorkersDraw hash a im R s b t st.1.ps st.2 st.1.ps l) ∧ QIds st.1.ps.queue ∧ SrcKeys st.1.ps st.2) ∨
      ((∃ ps0 l, WorkersDraw hash a im R s b t st.1.ps st.2 ps0 l) ∧ keepGoing a st.1.ps = false))
    (fun r => ∃ ps0 l, WorkersDraw hash a im R s b t r.1 r.2 ps0 l)
    ?_ ?_ _ _ (.inl ⟨⟨_, hinv, ⟨?_, ?_, ?_⟩, hd0, ?_, ?_, Ext.refl _, fun h => h, fun _ h => h⟩, initPS_qids hash a h0, ?_⟩) hrun
  · rintro ⟨⟨ps, gen⟩, d⟩ st' hst hstep
    unfold mainStepDot at hstep
    by_cases hk : NDP.keepGoing a ps = true
    swap
    · simp [hk] at hstep
    rcases hst with ⟨⟨l, hw⟩, hq, hsrc⟩ | ⟨_, hk'⟩
    swap
    · simp only at hk'; rw [hk'] at hk; cases hk
    simp only [hk, if_true] at hstep
    obtain ⟨⟨ps1, d1⟩, h1, hstep⟩ := M.bind_eq_pure.1 hstep
    have hpass := expandDot_pass hash a im hq h1
    rw [hw.inv.keepGoing hash a im hne] at hk
    match l, hw with
    | [], _ => simp at hk
    | x :: l, hw =>
      obtain ⟨l', k1, k2, k3⟩ := local_step hash a im hg seen hR hw.inv hq hw.loc hsrc h1
      obtain ⟨_, _, _, _, c1, c2, _, _, _, _, _, _, _, _, hpass⟩ := hpass
      have hw1 : WorkersDraw hash a im R s b t ps1 (d ++ d1) ps1 l' := by
        refine ⟨k1, k2, hw.draw.pass hash a im hpass, k3, ?_, Ext.refl _, fun h => h, fun _ h => h⟩
        intro h b' t' hm
        rw [List.mem_append] at hm
        rcases hm with hm | hm
        · exact hw.root h b' t' hm
        · exfalso
          rw [hpass.dots, List.mem_append] at hm
          have key : ∀ (p : H) (x y : Str) (c : SetObj H), Dot.node h b' t' none ∉ dotsFor p x y c := by
            intro p x y c hm
            unfold dotsFor at hm
            split at hm <;> simp at hm
          rcases hm with hm | hm
          · exact key _ _ _ _ hm
          · exact key _ _ _ _ hm
      simp only at hstep
      by_cases hsp : (gen && decide (0 < maxT) && decide (maxT = ps1.queue.size)) = true
      swap
      · rw [if_neg hsp] at hstep
        have e : st' = ({ ps := ps1, gen := gen }, d ++ d1) := by simpa using hstep.symm
        rw [e]
        exact .inl ⟨⟨l', hw1⟩, hpass.qids, k3⟩
      · rw [if_pos hsp] at hstep
        have hT : maxT = l'.length := by
          simp only [Bool.and_eq_true, decide_eq_true_eq] at hsp
          rw [hsp.2, k1.rep.size]
        rw [hT] at hstep
        obtain ⟨q', p1, p2, p3⟩ := popMany_ok l' ps1.queue k1.rep
        rw [p1] at hstep
        simp only [M.pure_bind, workerMsgDot_eq] at hstep
        have hthr := threads_work_any hash a im hg seen ps1.gdb (fails := fails) hR (fun x hx => k1.ready hash a im hR hs hx)
        have hfold : (List.mapIdx (fun i n => ({ node := n, msg := workerMsg hash a im seen ps1.gdb (fails i) n } : Thread H)) l')
          = threadsFor hash a im seen ps1.gdb fails l' := rfl
        rw [hfold] at hstep
        obtain ⟨T, hTe⟩ : ∃ T, threadsFor hash a im seen ps1.gdb fails l' = T := ⟨_, rfl⟩
        rw [hTe] at hthr hstep
        rw [M.bind_eq_pure] at hstep
        obtain ⟨ps'', hcol, hst⟩ := hstep
        have hst : st' = ({ ps := ps'', gen := false }, d ++ d1) := by simpa using hst.symm
        rw [hst]
        obtain ⟨ts, q, hts, hps'', hrest⟩ := collect_sound_any a hcol
        simp only at hps'' hrest hts
        have hmg := (Merged.start hash a im k1 q').foldl hash a im hR hs.tracks ts
            (fun t ht => ⟨(hthr t (hts t ht).1 (hts t ht).2).1,
              (k1.items _ (hthr t (hts t ht).1 (hts t ht).2).2).2.1⟩)
        rw [List.nil_append] at hmg
        have hext := Ext.merge ts { ps1 with queue := q' }
        obtain ⟨pm, hpm⟩ : ∃ pm, ts.foldl mergeOne { ps1 with queue := q' } = pm := ⟨_, rfl⟩
        rw [hpm] at hmg hps'' hext
        right
        refine ⟨⟨ps1, l', k1, k2, hw1.draw, k3, hw1.root, by rw [hps'']; exact hext, by rw [hps'']; exact hmg.satMono, by rw [hps'']; exact hmg.mono⟩, ?_⟩
        simp only
        unfold NDP.keepGoing Queue.isEmpty
        rcases hrest with ⟨h1, _⟩ | ⟨h1, h2⟩
        · have hqq : ps''.queue = q := by rw [hps'']
          rw [hqq, h1, p2.size]
          simp
        · have htr : truthy ps''.solution = true := by
            have hsol : ps''.solution = pm.solution := by rw [hps'']
            rw [hsol, truthy_iff hne hmg.sat hmg.sol]; exact hmg.solves h2
          simp [htr, h1]
  · rintro ⟨⟨ps, gen⟩, d⟩ r hst hstep
    unfold mainStepDot at hstep
    by_cases hk : NDP.keepGoing a ps = true
    · exfalso
      simp only [hk, if_true] at hstep
      obtain ⟨⟨ps1, d1⟩, h1, hstep⟩ := M.bind_eq_pure.1 hstep
      simp only at hstep
      split at hstep
      · obtain ⟨_, _, hstep⟩ := M.bind_eq_pure.1 hstep
        obtain ⟨_, _, hstep⟩ := M.bind_eq_pure.1 hstep
        simp at hstep
      · simp at hstep
    · simp only [hk, Bool.false_eq_true, if_false, M.pure_inj, Sum.inr.injEq] at hstep
      rw [← hstep]
      rcases hst with ⟨⟨l, hw⟩, _⟩ | ⟨hw, _⟩
      · exact ⟨ps, l, hw⟩
      · exact hw
  · intro x hx; rfl
  · intro h hh
    left
    simp only [hnc, Dict.keys, List.map_cons, List.map_nil, List.mem_singleton] at hh
    exact ⟨store a.useRuntimeDb s, by simp, by rw [hh]; exact hstore⟩
  · intro h b t i hm; simp at hm
  · intro h _; rfl
  · intro h b' t' hm
    simp only [List.mem_singleton, Dot.node.injEq] at hm
    exact ⟨hm.2.1, hm.2.2.1⟩
  · intro h _; rfl

end NDP
