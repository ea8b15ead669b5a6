import Verif.Props.Reader
/-
  C21, every text: exactly which DIMACS files are refused, and what is read from the others.
-/
namespace NDP
open Spec SetObj
variable {H : Type}

/-! ### Specification -/

/-- The lines the reader looks at: those after the first, up to the first blank one. -/
def seenLines (text : Str) : List Str := ((splitOn '\n' text).drop 1).takeWhile fun l => !isBlank l

/-- The pieces of these lines that should be numbers: what stands between blanks on lines that are neither comments nor problem lines. -/
def seenWords (text : Str) : List Str :=
  ((seenLines text).filter fun l => !isComment l && !isProblem l).flatMap fun l => (splitOn ' ' (strip l)).filter fun w => !w.isEmpty

/-- The clauses ended by a `0`. -/
def endedClauses (acc : List Int) : List Int → Cnf
  | [] => []
  | t :: ts => if t = 0 then acc :: endedClauses [] ts else endedClauses (acc ++ [t]) ts

/-- Files that are refused: a problem line without four fields, something that is not a number, or a clause ended by `0` with more than three
literals. -/
def RefusedDimacs (text : Str) : Prop :=
  (∃ l ∈ seenLines text, isComment l = false ∧ isProblem l = true ∧ (splitWS l).length ≠ 4) ∨
  match mapOpt parseInt (seenWords text) with
  | none => True
  | some ts => ∃ c ∈ endedClauses [] ts, 3 < c.length

/-- The clauses read: those of the numbers seen, without empty ones. -/
def seenClauses (text : Str) : Cnf :=
  (cutClauses [] ((mapOpt parseInt (seenWords text)).getD [])).filter fun c => !c.isEmpty

/-! ### Lemmas -/

/-- The unfinished clause. -/
def openClause (acc : List Int) : List Int → List Int
  | [] => acc
  | t :: ts => if t = 0 then openClause [] ts else openClause (acc ++ [t]) ts

theorem cutClauses_split (acc ts : List Int) :
    cutClauses acc ts = endedClauses acc ts ++ if openClause acc ts = [] then [] else [openClause acc ts] := by
  induction ts generalizing acc with
  | nil => simp only [cutClauses, endedClauses, openClause, List.nil_append]; by_cases h : acc = [] <;> simp [h]
  | cons t ts ih =>
    simp only [cutClauses, endedClauses, openClause]
    split
    · rw [ih]; simp
    · exact ih _

theorem foldlM_words (ws : List Str) (hne : ∀ w ∈ ws, w.isEmpty = false) (st : DimacsSt) :
    ws.foldlM dimacsElem st = match mapOpt parseInt ws with
      | none => raise .exception
      | some ts => if ∃ c ∈ endedClauses st.clause ts, 3 < c.length then raise .exception
        else pure ⟨openClause st.clause ts, st.done ++ ((endedClauses st.clause ts).filter fun c => !c.isEmpty).map dedup⟩ := by
  induction ws generalizing st with
  | nil => simp [mapOpt, endedClauses, openClause]
  | cons w ws ih =>
    have ih := ih (fun w hw => hne w (by simp [hw]))
    rw [List.foldlM_cons, show dimacsElem st w = match parseInt w with
      | none => raise .exception
      | some iel =>
        if iel = 0 ∧ st.clause.length = 0 then pure st
        else if iel = 0 then
          if 3 < st.clause.length then raise .exception
          else pure { clause := [], done := st.done ++ [dedup st.clause] }
        else pure { st with clause := st.clause ++ [iel] } by unfold dimacsElem; rw [hne w (by simp)]; rfl]
    simp only [mapOpt]
    cases hw : parseInt w with
    | none => simp only [M.raise_bind]
    | some i =>
      dsimp only
      by_cases h0 : i = 0
      · subst h0
        by_cases hl : st.clause.length = 0
        · have hn : st.clause = [] := List.length_eq_zero_iff.1 hl
          simp only [hl, and_self, if_true, M.pure_bind]
          rw [ih]
          cases mapOpt parseInt ws with
          | none => rfl
          | some ts => simp [endedClauses, openClause, hn]
        · have hn : st.clause ≠ [] := fun h => hl (by simp [h])
          simp only [hl, and_false, if_false, if_true]
          by_cases h3 : 3 < st.clause.length
          · simp only [h3, if_true, M.raise_bind]
            cases mapOpt parseInt ws with
            | none => rfl
            | some ts => simp [endedClauses, h3]
          · simp only [h3, if_false, M.pure_bind]
            rw [ih]
            cases mapOpt parseInt ws with
            | none => rfl
            | some ts => simp [endedClauses, openClause, hn, h3]
      · simp only [h0, false_and, if_false, M.pure_bind]
        rw [ih]
        cases mapOpt parseInt ws with
        | none => rfl
        | some ts => simp [endedClauses, openClause, h0]

theorem foldlM_words_cases (ws : List Str) (st : DimacsSt) :
    ws.foldlM dimacsElem st = raise .exception ∨ ∃ st', ws.foldlM dimacsElem st = pure st' := by
  rw [foldlM_skip_empty, foldlM_words _ (by intro w hw; simpa using (List.mem_filter.1 hw).2)]
  split
  · exact .inl rfl
  · split
    · exact .inl rfl
    · exact .inr ⟨_, rfl⟩

/-- A problem line without four fields. -/
def badProblem (l : Str) : Bool := !isComment l && isProblem l && decide ((splitWS l).length ≠ 4)

/-- The pieces of a line that should be numbers. -/
def numWords (l : Str) : List Str := if !isComment l && !isProblem l then (splitOn ' ' (strip l)).filter fun w => !w.isEmpty else []

theorem dimacsLine_all (l : Str) (st : DimacsSt) :
    dimacsLine st (strip l) = if badProblem l then raise .exception else (numWords l).foldlM dimacsElem st := by
  unfold dimacsLine badProblem numWords
  have hc : startsWith 'c' (strip l) = isComment l := startsWith_strip 'c' (by decide) l
  have hp : startsWith 'p' (strip l) = isProblem l := startsWith_strip 'p' (by decide) l
  by_cases he : (strip l).isEmpty = true
  · have h0 : strip l = [] := List.isEmpty_iff.1 he
    rw [h0] at hc hp
    rw [h0, ← hc, ← hp]
    simp [startsWith, splitOn]
  · rw [hc, hp, splitWS_strip, if_neg he]
    cases isComment l <;> cases isProblem l <;> simp
    exact foldlM_skip_empty _ _

theorem lines_all (ls : List Str) (st : DimacsSt) :
    ls.foldlM (fun st l => dimacsLine st (strip l)) st =
      if ∃ l ∈ ls, badProblem l = true then raise .exception else (ls.flatMap numWords).foldlM dimacsElem st := by
  induction ls generalizing st with
  | nil => simp
  | cons l ls ih =>
    rw [List.foldlM_cons, dimacsLine_all]
    by_cases hb : badProblem l = true
    · rw [if_pos hb, M.raise_bind, if_pos ⟨l, by simp, hb⟩]
    · rw [if_neg hb, List.flatMap_cons, List.foldlM_append]
      have hex : (∃ x ∈ l :: ls, badProblem x = true) ↔ ∃ x ∈ ls, badProblem x = true := by simp [hb]
      rcases foldlM_words_cases (numWords l) st with h | ⟨st', h⟩
      · rw [h, M.raise_bind, M.raise_bind, ite_self]
      · rw [h, M.pure_bind, M.pure_bind, ih]
        simp only [hex]

/-- The loop of the reader sees the lines up to the first blank one. -/
theorem dimacs_loop_all (ls : List Str) (hnl : ∀ l ∈ ls, '\n' ∉ l) (d : Str) (hd : d ≠ []) (st : DimacsSt) :
    pyWhile dimacsStep { dline := d, rest := joinWith ['\n'] ls, st := st } =
      (ls.takeWhile fun l => !isBlank l).foldlM (fun st l => dimacsLine st (strip l)) st := by
  have hsp : ∀ c ∈ ['\n'], isPySpace c = true := by
    intro c hc; simp at hc; subst hc; decide
  induction ls generalizing d st with
  | nil =>
    have hde : d.isEmpty = false := by cases d with | nil => exact absurd rfl hd | cons => rfl
    rw [pyWhile_eq]
    simp only [dimacsStep, hde, Bool.false_eq_true, if_false]
    show (pure _ >>= _ : M _) = _
    rw [M.pure_bind]
    exact pyWhile_inr rfl
  | cons l ls ih =>
    have hde : d.isEmpty = false := by cases d with | nil => exact absurd rfl hd | cons => rfl
    have hr : strip (readline (joinWith ['\n'] (l :: ls))).1 = strip l ∧ (readline (joinWith ['\n'] (l :: ls))).2 = joinWith ['\n'] ls := by
      cases ls with
      | nil =>
        show strip (readline l).1 = _ ∧ (readline l).2 = []
        rw [readline_last l (hnl l (by simp))]; exact ⟨rfl, rfl⟩
      | cons x xs =>
        have : joinWith ['\n'] (l :: x :: xs) = l ++ '\n' :: joinWith ['\n'] (x :: xs) := by simp [joinWith]
        rw [this, readline_cons _ _ (hnl l (by simp))]
        exact ⟨strip_append_space _ _ hsp, rfl⟩
    rw [pyWhile_eq]
    simp only [dimacsStep, hde, Bool.false_eq_true, if_false, hr.1, hr.2]
    by_cases hb : isBlank l = true
    · have h0 : strip l = [] := by rw [strip_eq_nil_iff]; simpa [isBlank] using hb
      rw [List.takeWhile_cons_of_neg (by simp [hb]), h0]
      show (pure _ >>= _ : M _) = _
      rw [M.pure_bind]
      exact pyWhile_inr rfl
    · have hne : strip l ≠ [] := by
        rw [Ne, strip_eq_nil_iff]
        intro hall
        exact hb (List.all_eq_true.2 hall)
      rw [List.takeWhile_cons_of_pos (by simp [hb]), List.foldlM_cons]
      rcases M.cases (dimacsLine st (strip l)) with h | ⟨e, h⟩ | ⟨st', h⟩
      · rw [h]; rfl
      · rw [h]; rfl
      · rw [h]
        simp only [M.pure_bind]
        exact ih (fun l hl => hnl l (by simp [hl])) (strip l) hne st'

theorem seenWords_eq (text : Str) : seenWords text = (seenLines text).flatMap numWords := by
  unfold seenWords
  induction seenLines text with
  | nil => rfl
  | cons l ls ih =>
    rw [List.flatMap_cons, ← ih]
    by_cases h : (!isComment l && !isProblem l) = true
    · rw [List.filter_cons_of_pos (p := fun l => !isComment l && !isProblem l) h, List.flatMap_cons]
      unfold numWords
      rw [if_pos h]
    · rw [List.filter_cons_of_neg (p := fun l => !isComment l && !isProblem l) h]
      unfold numWords
      rw [if_neg h]
      rfl

/-! ### C21 -/

theorem C21_run (text : Str) : (readInput .dimacs text : M (SetObj H)) =
    if ∃ l ∈ seenLines text, badProblem l = true then raise .exception else match mapOpt parseInt (seenWords text) with
      | none => raise .exception
      | some ts => if ∃ c ∈ endedClauses [] ts, 3 < c.length then raise .exception else pure (addAll {} 1 ((seenClauses text).map dedup)) := by
  show parseDimacs text = _
  unfold parseDimacs
  have hnl := mem_splitOn_no_sep '\n' text
  have htext := joinWith_splitOn '\n' text
  have hloop : pyWhile dimacsStep { dline := (readline text).1, rest := (readline text).2 } =
      (seenLines text).foldlM (fun st l => dimacsLine st (strip l)) {} := by
    unfold seenLines
    cases hs : splitOn '\n' text with
    | nil => rw [hs] at htext; rw [← htext]; exact pyWhile_inr rfl
    | cons first ls =>
      rw [hs] at hnl htext
      cases ls with
      | nil =>
        have ht : text = first := htext.symm
        by_cases h0 : text = []
        · rw [h0]; exact pyWhile_inr rfl
        · have := dimacs_loop_all [] (by simp) text h0 {}
          rw [readline_last text (by rw [ht]; exact hnl first (by simp))]
          exact this
      | cons x xs =>
        have : text = first ++ '\n' :: joinWith ['\n'] (x :: xs) := by rw [← htext]; simp [joinWith]
        rw [this, readline_cons _ _ (hnl first (by simp))]
        exact dimacs_loop_all (x :: xs) (fun l hl => hnl l (by simp [hl])) _ (by simp) {}
  rw [hloop, lines_all]
  split
  · rw [M.raise_bind]
  · rw [← seenWords_eq, foldlM_words _ (by
      intro w hw
      unfold seenWords at hw
      obtain ⟨l, _, hl⟩ := List.mem_flatMap.1 hw
      simpa using (List.mem_filter.1 hl).2)]
    cases hm : mapOpt parseInt (seenWords text) with
    | none => rw [M.raise_bind]
    | some ts =>
      dsimp only
      split
      · rw [M.raise_bind]
      · rw [M.pure_bind]
        unfold seenClauses
        rw [hm, Option.getD_some, cutClauses_split]
        by_cases ho : openClause [] ts = []
        · simp [ho]
        · have hpos : 0 < (openClause [] ts).length := List.length_pos_of_ne_nil ho
          simp [ho, hpos]

/-- **C21, refusals.** A file is refused, always with the reader's `Exception`, exactly if it is `RefusedDimacs`. -/
theorem C21_refused_iff (text : Str) :
    (readInput .dimacs text : M (SetObj H)) = raise .exception ↔ RefusedDimacs text := by
  rw [C21_run]
  have hb : (∃ l ∈ seenLines text, badProblem l = true) ↔ ∃ l ∈ seenLines text, isComment l = false ∧ isProblem l = true ∧ (splitWS l).length ≠ 4 := by
    simp [badProblem, and_assoc]
  unfold RefusedDimacs
  have hp : ∀ x : SetObj H, (pure x : M (SetObj H)) ≠ raise .exception := fun x h => by injection h with h; injection h
  by_cases h1 : ∃ l ∈ seenLines text, isComment l = false ∧ isProblem l = true ∧ (splitWS l).length ≠ 4
  · rw [if_pos (hb.2 h1)]; simp [h1]
  · rw [if_neg (fun h => h1 (hb.1 h))]
    cases mapOpt parseInt (seenWords text) with
    | none => simp
    | some ts =>
      dsimp only
      by_cases h2 : ∃ c ∈ endedClauses [] ts, 3 < c.length
      · rw [if_pos h2]; simp [h2]
      · rw [if_neg h2]
        constructor
        · intro h; exact absurd h (hp _)
        · rintro (h | h)
          · exact absurd h h1
          · exact absurd h h2

/-- **C21, everything else.** Every other file is read, and the set says exactly what the clauses seen say (a clause of more than three
literals, which can only be the last one without a `0` after it, must not be a tautology). -/
theorem C21_reads_seen (text : Str) (h : ¬ RefusedDimacs text)
    (hlast : ∀ c ∈ seenClauses text, 3 < c.length → ¬ Tautology c) :
    ∃ root : SetObj H, readInput .dimacs text = pure root ∧ ReadsAs root (seenClauses text) := by
  have hr : (readInput .dimacs text : M (SetObj H)) = pure (addAll {} 1 ((seenClauses text).map dedup)) ∧
      ∃ ts, mapOpt parseInt (seenWords text) = some ts ∧ ∀ c ∈ endedClauses [] ts, c.length ≤ 3 := by
    rw [C21_run]
    unfold RefusedDimacs at h
    have hb : (∃ l ∈ seenLines text, badProblem l = true) ↔ ∃ l ∈ seenLines text, isComment l = false ∧ isProblem l = true ∧ (splitWS l).length ≠ 4 := by
      simp [badProblem, and_assoc]
    rw [if_neg (fun h' => h (.inl (hb.1 h')))]
    cases hm : mapOpt parseInt (seenWords text) with
    | none => rw [hm] at h; exact absurd (.inr trivial) h
    | some ts =>
      rw [hm] at h
      have h2 : ¬ ∃ c ∈ endedClauses [] ts, 3 < c.length := fun h' => h (.inr h')
      dsimp only
      rw [if_neg h2]
      exact ⟨rfl, ts, rfl, fun c hc => by by_contra h3; exact h2 ⟨c, hc, by omega⟩⟩
  obtain ⟨h1, ts, hts, h3⟩ := hr
  have hS : seenClauses text = (cutClauses [] ts).filter fun c => !c.isEmpty := by unfold seenClauses; rw [hts]; rfl
  refine ⟨_, h1, readsAs_addAll _ ?_⟩
  intro c hc
  have hc' := hc
  rw [hS] at hc'
  have hcm := (List.mem_filter.1 hc').1
  refine ⟨?_, cutClauses_zero [] ts (by simp) c hcm⟩
  by_cases hl : c.length ≤ 3
  · exact .inl (le_trans (length_dedup_le c) hl)
  · right
    exact hlast c hc (by omega)

/-! ### Cases -/

/-- A repeated literal counts twice: four literals written, three different ones, refused. -/
example : RefusedDimacs "p cnf 3 1\n1 1 2 3 0\n".toList := by
  right
  exact ⟨[1, 1, 2, 3], by decide, by decide⟩

/-- Numbers separated by a tabulator are refused. -/
example : RefusedDimacs "p cnf 2 1\n1\t2 0\n".toList := by
  right
  exact trivial

/-- Accepted, with the last clause open and longer than three literals, an empty clause and text after a blank line ignored. -/
theorem C21_case : ¬ RefusedDimacs "p cnf 4 2\n1 -2 0 0\n1 2 3 4\n\n-1 0\n".toList ∧
    seenClauses "p cnf 4 2\n1 -2 0 0\n1 2 3 4\n\n-1 0\n".toList = [[1, -2], [1, 2, 3, 4]] := by
  constructor
  · rintro (h | h)
    · revert h; decide
    · revert h
      show ¬ ∃ c ∈ endedClauses [] [1, -2, 0, 0, 1, 2, 3, 4], 3 < c.length
      decide
  · decide

end NDP
