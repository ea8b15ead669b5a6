import Verif.Cnfgen.Constraints
import Verif.Cnfgen.PigeonProps
/-
  Concrete cases beside C48 and C49.
-/
namespace NDP.Cnfgen

/-- "Exactly two of a, b, c": the listed clauses, true under a, c but not under a alone. -/
example : equalTo ["a", "b", "c"] 2 =
      [[(false, "a"), (false, "b"), (false, "c")], [(true, "a"), (true, "b")], [(true, "a"), (true, "c")], [(true, "b"), (true, "c")]] ∧
    AllTrue (fun v => decide (v ≠ "b")) (equalTo ["a", "b", "c"] 2) ∧ ¬ AllTrue (fun v => decide (v = "a")) (equalTo ["a", "b", "c"] 2) := by
  refine ⟨by decide, (C48_equal_to _ _ _).2 (by decide), ?_⟩
  rw [C48_equal_to]; decide

/-- Odd number of three. -/
example : parityConstraint ["a", "b", "c"] 1 =
      [[(true, "a"), (true, "b"), (true, "c")], [(true, "a"), (false, "b"), (false, "c")], [(false, "a"), (true, "b"), (false, "c")],
        [(false, "a"), (false, "b"), (true, "c")]] ∧
    AllTrue (fun v => decide (v = "a")) (parityConstraint ["a", "b", "c"] 1) ∧
    ¬ AllTrue (fun v => decide (v ≠ "b")) (parityConstraint ["a", "b", "c"] 1) := by
  refine ⟨by decide, (C48_parity _ _ _).2 (by decide), ?_⟩
  rw [C48_parity]; decide

/-- A mapping of two elements into three: the identity is a model of its clauses, the empty relation is not. -/
example : AllTrue (fun p : Nat × Nat => decide (p.1 = p.2)) (UnaryMapping.full [1, 2] [1, 2, 3] Prod.mk).clauses ∧
    ¬ AllTrue (fun _ => false) (UnaryMapping.full [1, 2] [1, 2, 3] Prod.mk).clauses := by
  constructor
  · rw [UnaryMapping.C49_unary _ (fun _ => by simp [UnaryMapping.full]) (fun _ => by simp [UnaryMapping.full])]
    simp [UnaryMapping.full]
  · rw [UnaryMapping.C49_unary _ (fun _ => by simp [UnaryMapping.full]) (fun _ => by simp [UnaryMapping.full])]
    simp [UnaryMapping.full]
    exact ⟨1, by simp⟩

end NDP.Cnfgen
