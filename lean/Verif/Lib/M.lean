import Verif.Py
/- Lemmas about the result monad and the `while` loop. -/
namespace NDP

@[simp] theorem M.pure_bind {α β : Type} (a : α) (f : α → M β) : ((pure a : M α) >>= f) = f a := rfl
@[simp] theorem M.raise_bind {α β : Type} (e : PyErr) (f : α → M β) : ((raise e : M α) >>= f) = raise e := rfl
@[simp] theorem M.diverge_bind {α β : Type} (f : α → M β) : ((diverge : M α) >>= f) = diverge := rfl
@[simp] theorem M.pure_ne_raise {α : Type} (a : α) (e : PyErr) : (pure a : M α) ≠ raise e := by
  intro h; cases h
@[simp] theorem M.raise_ne_pure {α : Type} (a : α) (e : PyErr) : (raise e : M α) ≠ pure a := by
  intro h; cases h
@[simp] theorem M.pure_inj {α : Type} (a b : α) : (pure a : M α) = pure b ↔ a = b := by
  constructor
  · intro h; cases h; rfl
  · rintro rfl; rfl
@[simp] theorem M.diverge_ne_pure {α : Type} (a : α) : (diverge : M α) ≠ pure a := by
  intro h; cases h
@[simp] theorem M.pure_ne_diverge {α : Type} (a : α) : (pure a : M α) ≠ diverge := by
  intro h; cases h
@[simp] theorem M.raise_ne_diverge {α : Type} (e : PyErr) : (raise e : M α) ≠ diverge := by
  intro h; cases h
@[simp] theorem M.diverge_ne_raise {α : Type} (e : PyErr) : (diverge : M α) ≠ raise e := by
  intro h; cases h
@[simp] theorem orRaise_some {α : Type} (e : PyErr) (a : α) : orRaise e (some a) = pure a := rfl
@[simp] theorem orRaise_none {α : Type} (e : PyErr) : orRaise e (none : Option α) = raise e := rfl

theorem M.cases {α : Type} (x : M α) : x = diverge ∨ (∃ e, x = raise e) ∨ ∃ a, x = pure a := by
  rcases x with _ | (e | a)
  · left; rfl
  · right; left; exact ⟨e, rfl⟩
  · right; right; exact ⟨a, rfl⟩

/-- A bind that returns normally: both halves returned normally. -/
theorem M.bind_eq_pure {α β : Type} {x : M α} {f : α → M β} {b : β} :
    (x >>= f) = pure b ↔ ∃ a, x = pure a ∧ f a = pure b := by
  constructor
  · intro h
    rcases M.cases x with rfl | ⟨e, rfl⟩ | ⟨a, rfl⟩
    · simp at h
    · simp at h
    · exact ⟨a, rfl, by simpa using h⟩
  · rintro ⟨a, rfl, h⟩; simpa using h

theorem orRaise_eq_pure {α : Type} {e : PyErr} {o : Option α} {a : α} :
    orRaise e o = pure a ↔ o = some a := by
  cases o <;> simp

/-- Unfolding of a `while` loop. -/
theorem pyWhile_eq {S R : Type} (step : S → M (S ⊕ R)) (s : S) :
    pyWhile step s = (step s >>= fun r => match r with
      | .inl s' => pyWhile step s'
      | .inr r => pure r) := by
  rw [pyWhile]; rfl

theorem pyWhile_inl {S R : Type} {step : S → M (S ⊕ R)} {s s' : S} (h : step s = pure (.inl s')) :
    pyWhile step s = pyWhile step s' := by
  rw [pyWhile_eq, h]; rfl

theorem pyWhile_inr {S R : Type} {step : S → M (S ⊕ R)} {s : S} {r : R} (h : step s = pure (.inr r)) :
    pyWhile step s = pure r := by
  rw [pyWhile_eq, h]; rfl

theorem pyWhile_raise {S R : Type} {step : S → M (S ⊕ R)} {s : S} {e : PyErr} (h : step s = raise e) :
    pyWhile step s = raise e := by
  rw [pyWhile_eq, h]; rfl

/-- Total correctness of a `while` loop with a natural-number variant. -/
theorem pyWhile_total {S R : Type} {step : S → M (S ⊕ R)} (Inv : S → Prop) (Post : R → Prop)
    (μ : S → Nat)
    (h : ∀ s, Inv s → (∃ s', step s = pure (.inl s') ∧ Inv s' ∧ μ s' < μ s) ∨
      (∃ r, step s = pure (.inr r) ∧ Post r)) :
    ∀ s, Inv s → ∃ r, pyWhile step s = pure r ∧ Post r := by
  intro s
  induction hn : μ s using Nat.strongRecOn generalizing s with
  | _ n ih =>
    intro hs
    rcases h s hs with ⟨s', h1, h2, h3⟩ | ⟨r, h1, h2⟩
    · rw [pyWhile_inl h1]
      exact ih (μ s') (hn ▸ h3) s' rfl h2
    · exact ⟨r, pyWhile_inr h1, h2⟩

/-- Partial correctness of a `while` loop. -/
theorem pyWhile_partial {S R : Type} {step : S → M (S ⊕ R)} (Inv : S → Prop) (Post : R → Prop)
    (h1 : ∀ s s', Inv s → step s = pure (.inl s') → Inv s')
    (h2 : ∀ s r, Inv s → step s = pure (.inr r) → Post r) :
    ∀ s r, Inv s → pyWhile step s = pure r → Post r := by
  intro s r hs hr
  have key : ∀ s x, pyWhile step s = some x → Inv s → ∀ r, x = .ok r → Post r := by
    refine pyWhile.fixpoint_induct step
      (fun f => ∀ s x, f s = some x → Inv s → ∀ r, x = .ok r → Post r) ?_ ?_
    · refine Lean.Order.admissible_pi_apply (fun s (y : Option (Except PyErr R)) =>
        ∀ x, y = some x → Inv s → ∀ r, x = .ok r → Post r) ?_
      intro s
      refine Lean.Order.admissible_pi (fun (y : Option (Except PyErr R)) x => y = some x → Inv s → ∀ r, x = .ok r → Post r) ?_
      intro x
      exact Lean.Order.Option.admissible_eq_some _ x
    intro f ih s x hx hs r hxr
    subst hxr
    have hx' : (step s >>= fun r => match r with
      | .inl s' => f s'
      | .inr r => pure r) = (pure r : M R) := hx
    rw [M.bind_eq_pure] at hx'
    obtain ⟨a, ha, hb⟩ := hx'
    cases a with
    | inl s' => exact ih s' (.ok r) hb (h1 s s' hs ha) r rfl
    | inr r' =>
      have : r' = r := by simpa using hb
      subst this
      exact h2 s r' hs ha
  exact key s (.ok r) hr hs r rfl

/-- The loop run for at most `n` rounds. -/
def pyWhileN {S R : Type} (step : S → M (S ⊕ R)) : Nat → S → M R
  | 0, _ => diverge
  | n + 1, s => do
    match ← step s with
    | .inl s' => pyWhileN step n s'
    | .inr r => pure r

/-- A bounded run that returns agrees with the loop. -/
theorem pyWhile_of_pyWhileN {S R : Type} {step : S → M (S ⊕ R)} :
    ∀ (n : Nat) (s : S) (x : Except PyErr R), pyWhileN step n s = some x → pyWhile step s = some x := by
  intro n
  induction n with
  | zero => intro s x h; cases h
  | succ n ih =>
    intro s x h
    rw [pyWhile_eq]
    rw [pyWhileN] at h
    rcases M.cases (step s) with h' | ⟨e, h'⟩ | ⟨a, h'⟩
    · rw [h'] at h; cases h
    · rw [h'] at h ⊢; exact h
    · rw [h'] at h ⊢
      cases a with
      | inl s' => exact ih s' x h
      | inr r => exact h

/-- Total correctness with a measure that is part of the invariant. -/
theorem pyWhile_totalN {S R : Type} {step : S → M (S ⊕ R)} (Inv : Nat → S → Prop) (Post : R → Prop)
    (h : ∀ n s, Inv n s → (∃ s' m, step s = pure (.inl s') ∧ Inv m s' ∧ m < n) ∨
      (∃ r, step s = pure (.inr r) ∧ Post r)) :
    ∀ n s, Inv n s → ∃ r, pyWhile step s = pure r ∧ Post r := by
  intro n
  induction n using Nat.strongRecOn with
  | ind n ih =>
    intro s hs
    rcases h n s hs with ⟨s', m, h1, h2, h3⟩ | ⟨r, h1, h2⟩
    · obtain ⟨r, hr, hp⟩ := ih m h3 s' h2
      exact ⟨r, by rw [pyWhile_inl h1]; exact hr, hp⟩
    · exact ⟨r, pyWhile_inr h1, h2⟩

end NDP
