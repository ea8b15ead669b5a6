import Verif.Props.Graph
import Verif.Proofs.Exec
/-
  `-thief` together with several workers: what C17 (reachability), C19 and C20 exclude really happens.
-/
namespace NDP
open Spec

/-- Nine clauses over six variables. -/
def thiefCnf : Cnf :=
  [[-3, -1, -4], [-2, -4], [6, 3], [-5, 2, -4], [-5, 6], [-1, -5], [-1, 2], [6, 3, 5], [-3, -5]]

/-- `-thief -t 2` and `-thief -t 1`. -/
def thiefArgs (t : Nat) : Args := { thief := true, threads := t }

/-- Both workers are heard as soon as they are polled. -/
def thiefEnv : EnvChoice := { sched := [true, true, true] }

/-- The nodes found by following `k` edges at most from `V`. -/
def reachN {H : Type} [DecidableEq H] (nc : Dict H (List H)) : Nat → List H → List H
  | 0, V => V
  | k + 1, V => reachN nc k (dedup (V ++ V.flatMap fun x => (nc.get? x).getD []))

/-- The root of the run, its graph, and a set of nodes closed under edges. -/
def thiefRun : Option (Str × Dict Str (List Str) × List Str) :=
  match prepareRootF (fun s => s) (thiefArgs 2) 40 (mkSet (H := Str) thiefCnf) with
  | some (.ok (s, h)) =>
    match runMainF (fun s => s) (thiefArgs 2) (inputMode (thiefArgs 2)) 40 [] [] (maxThreads 4 (thiefArgs 2)) thiefEnv.fails
        thiefEnv.sched s with
    | some (.ok ps) => some (h, ps.nodesChildren, reachN ps.nodesChildren 8 [h])
    | _ => none
  | _ => none

theorem thiefRun_check : (match thiefRun with
    | none => false
    | some (h, nc, V) => decide (h ∈ V) && decide (h ∈ nc.keys) && V.all (fun x => ((nc.get? x).getD []).all fun y => decide (y ∈ V)) &&
        nc.all (fun p => decide (h ∉ p.2)) && decide (V ≠ []) && nc.keys.any fun x => decide (x ∉ V)) = true := by
  decide +kernel

theorem thief_proper : Proper thiefCnf := by unfold Proper thiefCnf; decide

/-- The run, with two workers, and what its graph looks like. -/
theorem thief_graph : ∃ rep : Report Str, ∃ h x : Str, ∃ V : List Str,
    solveSet (fun s => s) (thiefArgs 2) thiefEnv [] (mkSet thiefCnf) = pure rep ∧
    (∃ s, prepareRoot (fun s => s) (thiefArgs 2) (mkSet thiefCnf) = pure (s, h)) ∧
    h ∈ V ∧ h ∈ rep.nodesChildren.keys ∧ (∀ y z, y ∈ V → IsEdge rep y z → z ∈ V) ∧ (∀ y, ¬ IsEdge rep y h) ∧
    x ∈ rep.nodesChildren.keys ∧ x ∉ V := by
  have hc := thiefRun_check
  unfold thiefRun at hc
  cases h1 : prepareRootF (fun s => s) (thiefArgs 2) 40 (mkSet (H := Str) thiefCnf) with
  | none => rw [h1] at hc; simp at hc
  | some r =>
    cases r with
    | error e => rw [h1] at hc; simp at hc
    | ok p =>
      obtain ⟨s, h⟩ := p
      rw [h1] at hc
      simp only at hc
      cases h2 : runMainF (fun s => s) (thiefArgs 2) (inputMode (thiefArgs 2)) 40 [] [] (maxThreads 4 (thiefArgs 2)) thiefEnv.fails
          thiefEnv.sched s with
      | none => rw [h2] at hc; simp at hc
      | some r =>
        cases r with
        | error e => rw [h2] at hc; simp at hc
        | ok ps =>
          rw [h2] at hc
          simp only [Bool.and_eq_true, decide_eq_true_eq, List.all_eq_true, List.any_eq_true] at hc
          obtain ⟨⟨⟨⟨⟨c1, c2⟩, c3⟩, c4⟩, c5⟩, x, c6, c7⟩ := hc
          have hs : prepareRoot (fun s => s) (thiefArgs 2) (mkSet thiefCnf) = pure (s, h) :=
            (prepareRootF_le (fun s => s) (thiefArgs 2) 40 _).pure h1
          have hps := runMainF_pure (fun s : Str => s) (thiefArgs 2) (inputMode (thiefArgs 2)) h2
          have hI : Input thiefCnf (mkSet (H := Str) thiefCnf) := input_mkSet thief_proper (by simp [thiefCnf])
          have hl := hI.loaded thief_proper (by simp [thiefCnf])
          have hf : (thiefArgs 2).useRuntimeDb = true → thiefEnv.mainFails = false := fun _ => rfl
          obtain ⟨s', hs', hr, _⟩ := prepareRoot_ok (fun s : Str => s) (thiefArgs 2) thief_proper hl
          have e := (M.pure_inj _ _).1 (hs.symm.trans hs')
          simp only [Prod.mk.injEq] at e
          obtain ⟨e, eh⟩ := e
          subst e
          have hres := runMain_sound (fun s : Str => s) (thiefArgs 2) (inputMode (thiefArgs 2)) rfl [] [] (maxThreads thiefEnv.cpu (thiefArgs 2))
            thief_proper hr hps
          obtain ⟨rep, hrep, hR⟩ := finish_ok (fun s : Str => s) (thiefArgs 2) hres
          refine ⟨rep, h, x, _, ?_, ⟨s, hs⟩, c1, ?_, ?_, ?_, ?_, c7⟩
          · rw [solveSet_eq (fun s : Str => s) (thiefArgs 2) rfl rfl hf [] hl hs', M.bind_eq_pure]
            exact ⟨ps, hps, hrep⟩
          · rw [hR.nodesChildren]; exact c2
          · rintro y z hy ⟨ks, k1, k2⟩
            rw [hR.nodesChildren] at k1
            have := c3 y hy z
            rw [k1] at this
            simpa using this k2
          · rintro y ⟨ks, k1, k2⟩
            rw [hR.nodesChildren] at k1
            exact c4 (y, ks) (Dict.mem_of_get? k1) k2
          · rw [hR.nodesChildren]; exact c6

theorem thief_collisions (t : Nat) : NoCollisions (fun s : Str => s) (thiefArgs t) (mkSet thiefCnf) :=
  noCollisions_of_injective (hash := fun s : Str => s) (fun _ _ h => h) (thiefArgs t)
    (input_mkSet thief_proper (by simp [thiefCnf])) thief_proper (by simp [thiefCnf])

/-- **C17** is false with the thief method and two workers: a complete run leaves a graph in which no node reaches all the others. -/
theorem C17_thief_workers_refuted : ∃ rep : Report Str,
    solveSet (fun s => s) (thiefArgs 2) thiefEnv [] (mkSet thiefCnf) = pure rep ∧ Complete (thiefArgs 2) rep ∧
    ∀ r ∈ rep.nodesChildren.keys, ∃ x ∈ rep.nodesChildren.keys, ¬ Relation.ReflTransGen (IsEdge rep) r x := by
  obtain ⟨rep, h, x, V, hrun, -, h1, h2, h3, h4, h5, h6⟩ := thief_graph
  refine ⟨rep, hrun, by simp [Complete, thiefArgs], ?_⟩
  intro r hr
  by_cases e : r = h
  · subst e
    refine ⟨x, h5, fun hre => h6 ?_⟩
    clear h5 h6
    induction hre with
    | refl => exact h1
    | tail _ he ih => exact h3 _ _ ih he
  · refine ⟨h, h2, fun hre => ?_⟩
    cases hre with
    | refl => exact e rfl
    | tail _ he => exact h4 _ he

/-- **C19** is false with the thief method and two workers: the reported unique count is less than the number of nodes. -/
theorem C19_thief_workers_refuted : ∃ rep : Report Str,
    solveSet (fun s => s) (thiefArgs 2) thiefEnv [] (mkSet thiefCnf) = pure rep ∧ Complete (thiefArgs 2) rep ∧
    rep.uniques < rep.nodesChildren.length := by
  obtain ⟨rep, h, x, V, hrun, ⟨s0, hs0⟩, h1, h2, h3, h4, h5, h6⟩ := thief_graph
  refine ⟨rep, hrun, by simp [Complete, thiefArgs], ?_⟩
  have hI : Input thiefCnf (mkSet (H := Str) thiefCnf) := input_mkSet thief_proper (by simp [thiefCnf])
  obtain ⟨s, ps, hs, hr, hres, hrep, hnf, hreach, _⟩ := solveSet_graph (ha := ⟨rfl, rfl⟩) (fun _ => rfl) thief_proper
    (by simp [thiefCnf]) hI hrun
  have e := (M.pure_inj _ _).1 (hs0.symm.trans hs)
  simp only [Prod.mk.injEq] at e
  obtain ⟨-, eh⟩ := e
  obtain ⟨red, hcg, st0, k1, k2, k3, k4⟩ := hrep.stats rfl
  obtain ⟨stats, red', hcg', hall⟩ := constructGraphStats_ok hres.graph.closed hres.graph.nd (hid (fun s : Str => s) s)
  have e := (M.pure_inj _ _).1 (hcg.symm.trans hcg')
  simp only [Prod.mk.injEq] at e
  obtain ⟨e, -⟩ := e
  subst e
  obtain ⟨st, r, W, g1, _, g3, g4, g5, _⟩ := hall _ hres.graph.rootMem
  rw [k1] at g1
  cases g1
  rw [k2, g5.unique]
  rw [← hrep.nodesChildren, enumerates_lists, ← eh] at g3
  rw [← hrep.nodesChildren] at g4
  have hxW : x ∉ W := by
    rw [g3.2]
    intro hre
    apply h6
    clear h5 h6
    induction hre with
    | refl => exact h1
    | tail _ he ih => exact h3 _ _ ih he
  rw [← Dict.length_keys]
  have : (x :: W).length ≤ rep.nodesChildren.keys.length := by
    apply List.Subperm.length_le
    apply List.subperm_of_subset
    · exact List.nodup_cons.2 ⟨hxW, g3.1⟩
    · intro y hy
      rcases List.mem_cons.1 hy with rfl | hy
      · exact h5
      · exact g4 y hy
  simp only [List.length_cons] at this
  rw [Dict.length_keys] at this ⊢
  omega

/-- **C20** is false with the thief method: two workers and one process build different graphs. -/
theorem C20_thief_workers_refuted : ∃ rep rep' : Report Str,
    solveSet (fun s => s) (thiefArgs 2) thiefEnv [] (mkSet thiefCnf) = pure rep ∧ Complete (thiefArgs 2) rep ∧
    solveSet (fun s => s) (thiefArgs 1) {} [] (mkSet thiefCnf) = pure rep' ∧ Complete (thiefArgs 1) rep' ∧
    ∃ x, rep.nodesChildren.get? x ≠ rep'.nodesChildren.get? x := by
  obtain ⟨rep, hrun, hc, hno⟩ := C17_thief_workers_refuted
  have hI : Input thiefCnf (mkSet (H := Str) thiefCnf) := input_mkSet thief_proper (by simp [thiefCnf])
  obtain ⟨rep', hrun'⟩ := C03_terminates (fun s : Str => s) (a := thiefArgs 1) ⟨rfl, rfl⟩ (env := {}) ⟨fun _ => rfl, fun _ _ => rfl, by decide⟩ [] thief_proper
    (by simp [thiefCnf]) hI
  refine ⟨rep, rep', hrun, hc, hrun', by simp [Complete, thiefArgs], ?_⟩
  · by_contra hx
    push Not at hx
    obtain ⟨N0, -, q1, -, -, -, q2⟩ := C17_graph_well_formed (hash := fun s : Str => s) (a := thiefArgs 1) ⟨rfl, rfl⟩ (fun _ => rfl)
      thief_proper (by simp [thiefCnf]) hI (thief_collisions 1) hrun'
    have hk : ∀ k, k ∈ rep.nodesChildren.keys ↔ k ∈ rep'.nodesChildren.keys := by
      intro k
      rw [Dict.mem_keys_iff, Dict.mem_keys_iff, hx]
    have hedge : IsEdge rep = IsEdge rep' := by
      funext y z
      unfold IsEdge
      rw [hx]
    obtain ⟨x, hx1, hx2⟩ := hno _ ((hk _).2 q1)
    rw [hedge] at hx2
    exact hx2 (q2 (by simp [Complete, thiefArgs]) (Or.inr rfl) x ((hk x).1 hx1))

end NDP
