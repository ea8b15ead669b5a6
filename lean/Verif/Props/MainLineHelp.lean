import Verif.Props.MainLineExact
/-
  C101: the status 0 without solving anything is only given if help or the version is asked for.
-/
namespace NDP
open Cnfgen

theorem exits_zero (fs : Files) : ∀ (l : List Ev) (p : Parsing), runEvents fs p l = .exits 0 → ∃ o vals, Ev.act o vals ∈ l ∧ (o = .help ∨ o = .version)
  | [], p, h => by
    unfold runEvents at h
    split at h
    · cases h
    · split at h <;> cases h
  | .err :: _, p, h => by simp [runEvents] at h
  | .extra :: l, p, h => by
    rw [runEvents] at h
    obtain ⟨o, vals, h1, h2⟩ := exits_zero fs l _ h
    exact ⟨o, vals, List.mem_cons_of_mem _ h1, h2⟩
  | .act o vals :: l, p, h => by
    rw [runEvents] at h
    split at h
    · rename_i ho; exact ⟨o, vals, List.mem_cons_self, ho⟩
    · split at h
      · cases h
      · split at h
        · cases h
        · obtain ⟨o, vals, h1, h2⟩ := exits_zero fs l _ h
          exact ⟨o, vals, List.mem_cons_of_mem _ h1, h2⟩

theorem act_of_opt {es : List (SOpt × Option Str)} {vs : List Str} {o : SOpt} {vals : List Str} (h : Ev.act o vals ∈ optEvents es vs) : ∃ v, (o, v) ∈ es := by
  unfold optEvents at h
  rcases List.mem_append.1 h with h | h
  · obtain ⟨e, he, e2⟩ := List.mem_map.1 h
    cases e2
    exact ⟨e.2, List.dropLast_subset _ he⟩
  · cases hl : es.getLast? with
    | none => rw [hl] at h; simp at h
    | some e =>
      rw [hl] at h
      simp at h
      obtain ⟨rfl, _⟩ := h
      exact ⟨e.2, List.mem_of_getLast? hl⟩

theorem act_word : ∀ (n : Nat) (l : List (Str × Word SOpt)), l.length ≤ n → ∀ {o : SOpt} {vals : List Str}, Ev.act o vals ∈ events l →
    ∃ w a long v es, (w, Word.opt a long v) ∈ l ∧ optExpand solverOptions (fun o => decide (o.arity ≠ 0)) long a v = some es ∧ wordsWanted es ≠ none ∧ ∃ u, (o, u) ∈ es := by
  intro n
  induction n with
  | zero => intro l hl o vals h; obtain rfl := List.length_eq_zero_iff.1 (Nat.le_zero.1 hl); simp [events] at h
  | succ n ih =>
    intro l hl o vals h
    have up : ∀ (l' : List (Str × Word SOpt)), l' ⊆ l → l'.length ≤ n → Ev.act o vals ∈ events l' →
        ∃ w a long v es, (w, Word.opt a long v) ∈ l ∧ optExpand solverOptions (fun o => decide (o.arity ≠ 0)) long a v = some es ∧ wordsWanted es ≠ none ∧ ∃ u, (o, u) ∈ es := by
      intro l' hs hn h'
      obtain ⟨w, a, long, v, es, h1, h2⟩ := ih l' hn h'
      exact ⟨w, a, long, v, es, hs h1, h2⟩
    match l, h with
    | [], h => simp [events] at h
    | (_, .arg) :: ws, h =>
      rw [events] at h
      rcases List.mem_cons.1 h with h | h
      · cases h
      · exact up ws (by simp) (by simpa using hl) h
    | (_, .unknown) :: ws, h =>
      rw [events] at h
      rcases List.mem_cons.1 h with h | h
      · cases h
      · exact up ws (by simp) (by simpa using hl) h
    | (_, .ambiguous) :: ws, h => simp [events] at h
    | (w, .opt a long v) :: ws, h =>
      rw [events] at h
      cases hx : optExpand solverOptions (fun o => decide (o.arity ≠ 0)) long a v with
      | none => rw [hx] at h; simp at h
      | some es =>
        rw [hx] at h
        simp only at h
        have here : wordsWanted es ≠ none → (∃ u, (o, u) ∈ es) →
            ∃ w' a' long' v' es, (w', Word.opt a' long' v') ∈ (w, .opt a long v) :: ws ∧ optExpand solverOptions (fun o => decide (o.arity ≠ 0)) long' a' v' = some es ∧
              wordsWanted es ≠ none ∧ ∃ u, (o, u) ∈ es := fun h1 h2 => ⟨w, a, long, v, es, List.mem_cons_self, hx, h1, h2⟩
        have hln : ws.length ≤ n := by simpa using hl
        split at h
        · rename_i hw
          rcases List.mem_append.1 h with h | h
          · exact here (by rw [hw]; simp) (act_of_opt h)
          · exact up ws (by simp) hln h
        · rename_i hw
          split at h
          · rename_i b ws'
            rcases List.mem_append.1 h with h | h
            · exact here (by rw [hw]; simp) (act_of_opt h)
            · exact up ws' (by intro x hx; simp [hx]) (by simp at hln; omega) h
          · simp at h
        · rename_i hw
          split at h
          · rename_i b c ws'
            rcases List.mem_append.1 h with h | h
            · exact here (by rw [hw]; simp) (act_of_opt h)
            · exact up ws' (by intro x hx; simp [hx]) (by simp at hln; omega) h
          · simp at h
        · simp at h

theorem class_word : ∀ {ws : List Str} {w : Str} {a : SOpt} {long : Bool} {v : Option Str}, (w, Word.opt a long v) ∈ wordClasses ws →
    w ∈ ws ∧ classify solverOptions w = .opt a long v
  | [], w, a, long, v, h => by simp [wordClasses] at h
  | x :: ws, w, a, long, v, h => by
    rw [wordClasses] at h
    split at h
    · rcases List.mem_cons.1 h with h | h
      · cases h
      · obtain ⟨_, _, e⟩ := List.mem_map.1 h
        cases e
    · rcases List.mem_cons.1 h with h | h
      · simp only [Prod.mk.injEq] at h
        obtain ⟨rfl, h⟩ := h
        exact ⟨List.mem_cons_self, h.symm⟩
      · obtain ⟨h1, h2⟩ := class_word h
        exact ⟨List.mem_cons_of_mem _ h1, h2⟩

/-- **C101** The command line ends with status 0, without anything being solved, only if one of its words asks for help or the version (alone, abbreviated, or as one of several letters). -/
theorem C101_only_help (fs : Files) {ws : List Str} (h : parseLine fs ws = .exits 0) :
    ∃ w ∈ ws, ∃ es, WordMeans w es ∧ ∃ o v, (o, v) ∈ es ∧ (o = .help ∨ o = .version) := by
  simp only [parseLine] at h
  split at h
  · cases h
  · obtain ⟨o, vals, h1, h2⟩ := exits_zero fs _ _ h
    obtain ⟨w, a, long, v, es, h3, h4, h5, u, h6⟩ := act_word _ _ le_rfl h1
    obtain ⟨h7, h8⟩ := class_word h3
    exact ⟨w, h7, es, (means_iff w es).2 ⟨a, long, v, h8, h4, h5⟩, o, u, h6, h2⟩

/-- **C101** Without such a word every refused command line has status 2. -/
theorem C101_refused (fs : Files) {ws : List Str} (h : ∀ w ∈ ws, ∀ es, WordMeans w es → ∀ e ∈ es, e.1 ≠ .help ∧ e.1 ≠ .version)
    (hn : ¬ ∃ is, Reads ws is ∧ Accepted fs is) : parseLine fs ws = .exits 2 := by
  rcases C101_every fs ws with ⟨n, hn', e⟩ | ⟨is, h1, h2, e⟩
  · rcases hn' with rfl | rfl
    · obtain ⟨w, hw, es, hm, o, v, hv, ho⟩ := C101_only_help fs e
      have := h w hw es hm _ hv
      rcases ho with rfl | rfl
      · exact absurd rfl this.1
      · exact absurd rfl this.2
    · exact e
  · exfalso
    obtain ⟨js, j1, _, j3, _⟩ := (C101_exact fs ws _ _).1 e
    exact hn ⟨js, j1, j3⟩

/-- `main.py in.cnf` (the file without `-d`): refused. -/
example (fs : Files) : parseLine fs ["in.cnf".toList] = .exits 2 := by
  have hno : ∀ es, ¬ WordMeans "in.cnf".toList es := by
    intro es h
    obtain ⟨a, long, v, h1, _⟩ := (means_iff _ es).1 h
    rw [(arg_iff "in.cnf".toList).2 (.inl (by decide))] at h1
    cases h1
  refine C101_refused fs ?_ ?_
  · intro w hw es h
    obtain rfl := List.mem_singleton.1 hw
    exact absurd h (hno es)
  · rintro ⟨is, h, _⟩
    generalize hw : ["in.cnf".toList] = ws at h
    cases h with
    | nil => cases hw
    | cons h1 _ _ _ =>
      obtain ⟨rfl, _⟩ := List.cons.inj hw
      exact hno _ h1

end NDP
