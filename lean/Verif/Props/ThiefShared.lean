import Verif.Props.Shared
/-
  C37 with the thief method (`-th`): a child named by a row can be lost.
  Two processes reach the same node in two representations (the thief method renames the variables of a child by a rule
  that depends on the parent's own names), so their branches have different normal forms; the process that comes second
  fails to insert the row and drops its children, but its list of known nodes keeps them.
-/
namespace NDP
open Spec SetObj

def exLostArgs : Args := { mode := .flo, useGlobalDb := true, threads := 2, thief := true }

def exLost : Cnf := [[-5,3,-7],[-2,4],[-8,6],[8,3],[-1,2],[-8,2,3],[5,-3],[8,7,3],[-1,-5],[-8,-7,5],[7,-3],[-2,-4,-6],[3,4],
  [-8,6],[4,3],[-5,2,-4]]

def exLostActs : List Act := [.run 0, .spawn 0] ++ List.replicate 7 (.run 1) ++ List.replicate 7 (.run 2)

/-- The root is expanded, its two children are handed to two processes; the first does all its work, then the second. -/
def exLostRun : M (SetObj Str × Str × Shared Str) := do
  let (s, k) ← prepareRootF (fun s => s) exLostArgs 50 (mkSet exLost)
  let ps ← initPS (fun s => s) exLostArgs [] 1 s
  let S ← actsF (fun s => s) exLostArgs .flo 50 [] [] exLostActs { gdb := [], procs := [ps] }
  pure (s, k, S)

def exLostParent : Str := "1&1|-2&-1|-3&2".toList
def exLostChild : Str := "1&-2".toList

set_option maxRecDepth 100000 in
theorem exLostRun_ok : (match exLostRun with
    | some (.ok (_, _, S)) => (S.procs.all fun p => p.queue.size == 0) && (S.procs.length == 3) && (S.gdb.length == 14) &&
        (match Dict.get? S.gdb exLostParent with
          | some r => decide (r.cid1 = exLostChild ∨ r.cid2 = exLostChild)
          | none => false) &&
        decide (exLostChild ∉ Dict.keys S.gdb) && decide (Dict.contains S.gdb (textOf [[-1], [2]]) = true)
    | _ => false) = true := by decide +kernel

theorem done_of_sizes {H : Type} [DecidableEq H] {S : Shared H} (h : ∀ p ∈ S.procs, p.queue.size = 0) (c : H) : ¬ Pending S c := by
  rintro ⟨p, hp, nodes, q, x, hpop, hx, _⟩
  rw [h p hp] at hpop
  have e := (M.pure_inj _ _).1 hpop
  simp only [Prod.mk.injEq] at e
  rw [← e.1] at hx
  simp at hx

/-- **C37 is false with the thief method.** A run of three processes on an empty table, in which every process has nothing
left to do, leaves a row that names the child `[[1], [-2]]`, which is neither in the table nor in any queue.  The digest is
the text itself, so nothing depends on collisions. -/
theorem C37_thief_refuted : ∃ (s : SetObj Str) (k : Str) (S : Shared Str), Proper exLost ∧ Input exLost (mkSet exLost (H := Str)) ∧
    SharedRun (fun s : Str => s) exLostArgs [] (mkSet exLost) s k S ∧ (∀ c, ¬ Pending S c) ∧
    Links (fun s : Str => s) S.gdb (textOf [[1], [1, -2], [-1, -3], [2]]) (textOf [[1], [-2]]) ∧
    textOf [[1], [-2]] ∉ Dict.keys S.gdb ∧ textOf [[-1], [2]] ∈ Dict.keys S.gdb := by
  have hF : Proper exLost := by unfold exLost Proper; decide
  have hI := input_mkSet (H := Str) hF (by simp [exLost])
  have hok := exLostRun_ok
  rcases M.cases exLostRun with e | ⟨er, e⟩ | ⟨⟨s, k, S⟩, e⟩
  · rw [e] at hok; exact absurd hok (by decide)
  · rw [e] at hok; exact absurd hok (by intro h; cases h)
  · rw [e] at hok
    have hok : ((S.procs.all fun p => p.queue.size == 0) && (S.procs.length == 3) && (S.gdb.length == 14) &&
        (match Dict.get? S.gdb exLostParent with
          | some r => decide (r.cid1 = exLostChild ∨ r.cid2 = exLostChild)
          | none => false) &&
        decide (exLostChild ∉ Dict.keys S.gdb) && decide (Dict.contains S.gdb (textOf [[-1], [2]]) = true)) = true := hok
    simp only [Bool.and_eq_true, List.all_eq_true, beq_iff_eq, decide_eq_true_eq] at hok
    obtain ⟨⟨⟨⟨⟨hq, _⟩, _⟩, hrow⟩, hno⟩, hyes⟩ := hok
    unfold exLostRun at e
    obtain ⟨⟨s', k'⟩, h1, e⟩ := M.bind_eq_pure.1 e
    obtain ⟨ps0, h2, e⟩ := M.bind_eq_pure.1 e
    obtain ⟨S', h3, e⟩ := M.bind_eq_pure.1 e
    have e := (M.pure_inj _ _).1 e
    cases e
    have hs : SharedRun (fun s : Str => s) exLostArgs [] (mkSet exLost) s k S :=
      ⟨rfl, (prepareRootF_le (fun s : Str => s) exLostArgs 50 (mkSet exLost)).pure h1,
        actsF_spec (fun s : Str => s) exLostArgs .flo (.start ps0 h2) h3⟩
    have e1 : textOf [[1], [1, -2], [-1, -3], [2]] = exLostParent := by decide +kernel
    have e2 : textOf [[1], [-2]] = exLostChild := by decide +kernel
    refine ⟨s, k, S, hF, hI, hs, done_of_sizes hq, ?_, by rw [e2]; exact hno, (Dict.mem_keys_iff _ _).2 hyes⟩
    rw [e1, e2]
    match hg : Dict.get? S.gdb exLostParent, hrow with
    | some r, hrow =>
      simp only [decide_eq_true_eq] at hrow
      exact ⟨r, hg, hrow.imp Eq.symm Eq.symm, by decide, by decide⟩

/-- What is proved of every run holds of this one: its verdict is right although a child is lost, and a renaming of the
lost child is in the table. -/
example : ∃ (s : SetObj Str) (k : Str) (S : Shared Str), SharedRun (fun s : Str => s) exLostArgs [] (mkSet exLost) s k S ∧
    (∃ p c, Links (fun s : Str => s) S.gdb p c ∧ c ∉ Dict.keys S.gdb ∧
      ∃ G G1 : Cnf, c = textOf G ∧ Renamed G G1 ∧ textOf G1 ∈ Dict.keys S.gdb) ∧
    ((∃ ps ∈ S.procs, ps.isSat = true) ↔ Satisfiable exLost) := by
  obtain ⟨s, k, S, hF, hI, hs, hd, hl, hn, _⟩ := C37_thief_refuted
  have hT : TextsBelow (fun _ => True) s := fun _ _ => trivial
  obtain ⟨_, h2⟩ := C37_no_node_lost_up_to_renaming_partial (fun s : Str => s) (T := fun _ => True) (fun _ _ _ _ e => e) trivial trivial
    hF (by simp [exLost]) hI hT hs (tableSound_nil _) (fun _ _ _ => trivial)
  obtain ⟨G, G1, g1, g2, _, _, g3⟩ := h2 _ _ (by simp) hl
  refine ⟨s, k, S, hs, ⟨_, _, hl, hn, G, G1, g1, g2, g3.resolve_right (hd _)⟩, ?_⟩
  apply C44_verdict (fun s : Str => s) (T := fun _ => True) (fun _ _ _ _ e => e) trivial trivial hF (by simp [exLost]) hI hT hs
  intro ps hp
  unfold keepGoing Queue.isEmpty
  obtain ⟨L, hL⟩ := (sharedRun_inv (fun s : Str => s) (T := fun _ => True) (fun _ _ _ _ e => e) trivial trivial hF
    (by simp [exLost]) hI hT hs (tableSound_nil _) (fun _ _ _ => trivial)).2.2
  obtain ⟨i, hi, rfl⟩ := List.mem_iff_getElem.1 hp
  obtain ⟨l, hl', hpi⟩ := forall2_get hL.procs (List.getElem?_eq_getElem hi)
  match l, hpi with
  | [], hpi => rw [hpi.rep.size]; rfl
  | x :: l, hpi =>
    obtain ⟨q, hq, _⟩ := popMany_table _ _ hpi.rep
    exact absurd ⟨_, List.getElem_mem hi, _, q, x, by rw [hpi.rep.size]; exact hq, by simp, (hpi.items x (by simp)).1.2.2.2.1⟩ (hd (hid (fun s : Str => s) x))

end NDP
