import Verif.Proofs.Reader
import Verif.Model.Task
import Verif.Props.Verdict
import Verif.Props.Basic
/-
  C21-C24: reading the input, and `Main` on what was read.
-/
namespace NDP
open Spec SetObj
variable {H : Type}

/-- The set object read for the formula `F`: its clauses are the clauses of `F` that are not tautologies (in order, each
literal once, in ascending variable order); it says exactly what `F` says; it is the constant T exactly when `F` has
clauses but all are tautologies; nothing is assigned or renamed. -/
structure ReadsAs (root : SetObj H) (F : Cnf) : Prop where
  clauses : List.Forall₂ (fun r c => (∀ l, l ∈ r ↔ l ∈ c) ∧ r.Pairwise fun a b => a.natAbs < b.natAbs)
    (raws root.clauses) (F.filter fun c => decide (¬ Tautology c))
  same : ∀ α, Sat α (raws root.clauses) ↔ Sat α F
  value : root.value = if F ≠ [] ∧ ∀ c ∈ F, Tautology c then some true else none
  fnm : root.finalNamesMap = []
  ev : root.evaluatedVars = []

theorem sat_of_tautology {c : List Int} (h0 : (0 : Int) ∉ c) (ht : Tautology c) (α : Assign) :
    ∃ l ∈ c, litVal α l = true := by
  obtain ⟨l, hl, hn⟩ := ht
  have hl0 : l ≠ 0 := fun e => h0 (e ▸ hl)
  cases h : litVal α l
  · refine ⟨-l, hn, ?_⟩
    unfold litVal at h ⊢
    rw [Int.natAbs_neg]
    by_cases hneg : l < 0
    · rw [if_pos hneg] at h
      rw [if_neg (by omega)]; simpa using h
    · rw [if_neg hneg] at h
      rw [if_pos (by omega), h]; rfl
  · exact ⟨l, hl, h⟩

theorem readsAs_addAll (F : Cnf) (h : ∀ c ∈ F, ((dedup c).length ≤ 3 ∨ ¬ Tautology c) ∧ (0 : Int) ∉ c) :
    ReadsAs (addAll ({} : SetObj H) 1 (F.map dedup)) F := by
  obtain ⟨h1, h2, h3, h4, h5⟩ := raws_addAll F h ({} : SetObj H) 1 (by simp) (by simp)
  have h1 : raws (addAll ({} : SetObj H) 1 (F.map dedup)).clauses =
      (F.filter fun c => decide (¬ Tautology c)).map fun c => sortAbs (dedup c) := by
    rw [h1]; rfl
  refine ⟨?_, ?_, ?_, h4, h5⟩
  · rw [h1, List.forall₂_map_left_iff, List.forall₂_same]
    intro c hc
    rw [List.mem_filter, decide_eq_true_eq] at hc
    refine ⟨fun l => by simp, ?_⟩
    apply asc_sortAbs
    apply natAbs_nodup_of_no_taut (nodup_dedup c) (by simpa using (h c hc.1).2)
    rintro ⟨l, hl, hn⟩
    exact hc.2 ⟨l, by simpa using hl, by simpa using hn⟩
  · intro α
    rw [h1]
    constructor
    · intro hs c hc
      by_cases ht : Tautology c
      · exact sat_of_tautology (h c hc).2 ht α
      · obtain ⟨l, hl, hv⟩ := hs (sortAbs (dedup c)) (List.mem_map.2 ⟨c, by simp [hc, ht], rfl⟩)
        exact ⟨l, by simpa using hl, hv⟩
    · intro hs d hd
      obtain ⟨c, hc, rfl⟩ := List.mem_map.1 hd
      rw [List.mem_filter] at hc
      obtain ⟨l, hl, hv⟩ := hs c hc.1
      exact ⟨l, by simpa using hl, hv⟩
  · rw [h3]
    have hnil : (addAll ({} : SetObj H) 1 (F.map dedup)).clauses = [] ↔ ∀ c ∈ F, Tautology c := by
      have : (addAll ({} : SetObj H) 1 (F.map dedup)).clauses = [] ↔
          raws (addAll ({} : SetObj H) 1 (F.map dedup)).clauses = [] := by simp [raws]
      rw [this, h1, List.map_eq_nil_iff, List.filter_eq_nil_iff]
      simp
    by_cases ht : ∀ c ∈ F, Tautology c
    · rw [if_pos (hnil.2 ht)]
      by_cases hF : F = []
      · simp [hF]
      · rw [if_neg hF, if_pos ⟨hF, ht⟩]
    · rw [if_neg (fun e => ht (hnil.1 e)), if_neg (fun e => ht e.2)]

theorem length_dedup_le (c : List Int) : (dedup c).length ≤ c.length := by
  induction c with
  | nil => simp [dedup]
  | cons x xs ih =>
    simp only [dedup, List.length_cons]
    have := List.length_filter_le (fun y => decide (y ≠ x)) (dedup xs)
    omega

/-! ### C21 -/

/-- Layout under which the reader is faithful: after the first line (comment, problem line or blank), no blank line comes
before the last visible line, problem lines have four fields, and words on a clause line are separated by blanks. -/
structure GoodDimacs (text : Str) : Prop where
  layout : ∃ first body blanks, splitOn '\n' text = first :: (body ++ blanks) ∧
    (isComment first = true ∨ isProblem first = true ∨ isBlank first = true) ∧
    (∀ l ∈ body, isBlank l = false ∧ GoodLine l) ∧ (∀ l ∈ blanks, isBlank l = true)

theorem cutClauses_zero (acc ts : List Int) (h : (0 : Int) ∉ acc) : ∀ c ∈ cutClauses acc ts, (0 : Int) ∉ c := by
  induction ts generalizing acc with
  | nil =>
    intro c hc
    simp only [cutClauses] at hc
    split at hc
    · simp at hc
    · simp at hc; subst hc; exact h
  | cons t ts ih =>
    intro c hc
    simp only [cutClauses] at hc
    split at hc
    · rcases List.mem_cons.1 hc with rfl | hc
      · exact h
      · exact ih [] (by simp) c hc
    · next ht =>
      refine ih (acc ++ [t]) ?_ c hc
      simp only [List.mem_append, List.mem_singleton, not_or]
      exact ⟨h, fun e => ht e.symm⟩

theorem lineWords_blank {l : Str} (h : isBlank l = true) : lineWords l = [] := by
  unfold lineWords
  rw [splitWS_blank (by simpa [isBlank] using h)]
  simp

/-- What the reader does with a text of that layout. -/
theorem parseDimacs_good {text : Str} (h : GoodDimacs text) {F : Cnf} (hF : dimacsFormula text = some F)
    (h3 : ∀ c ∈ F, c ≠ [] ∧ c.length ≤ 3) :
    (parseDimacs text : M (SetObj H)) = pure (addAll {} 1 (F.map dedup)) := by
  obtain ⟨first, body, blanks, hsp, hfirst, hbody, hblanks⟩ := h.layout
  have hnl := mem_splitOn_no_sep '\n' text
  rw [hsp] at hnl
  have htext := joinWith_splitOn '\n' text
  rw [hsp] at htext
  have hfw : lineWords first = [] := by
    rcases hfirst with h | h | h
    · simp [lineWords, h]
    · simp [lineWords, h]
    · exact lineWords_blank h
  have hbw : blanks.flatMap lineWords = [] := by
    rw [List.flatMap_eq_nil_iff]
    exact fun l hl => lineWords_blank (hblanks l hl)
  have htok : dimacsTokens text = body.flatMap lineWords := by
    show (splitOn '\n' text).flatMap lineWords = _
    rw [hsp, List.flatMap_cons, List.flatMap_append, hfw, hbw]; simp
  unfold dimacsFormula at hF
  rw [htok] at hF
  cases hts : mapOpt parseInt (body.flatMap lineWords) with
  | none => rw [hts] at hF; simp at hF
  | some ts =>
    rw [hts] at hF
    simp only [Option.map_some, Option.some.injEq] at hF
    subst hF
    have hwne : ∀ w ∈ body.flatMap lineWords, w ≠ [] := by
      intro w hw
      obtain ⟨l, _, hl⟩ := List.mem_flatMap.1 hw
      unfold lineWords at hl
      split at hl
      · simp at hl
      · exact mem_splitWS_ne_nil _ w hl
    obtain ⟨st', h1, h2⟩ := foldlM_tokens _ ts hwne hts {} h3
    have hloop : pyWhile dimacsStep { dline := (readline text).1, rest := (readline text).2 } = pure st' := by
      cases hrest : body ++ blanks with
      | nil =>
        rw [hrest] at htext
        have ht : text = first := htext.symm
        have hb : body = [] := (List.append_eq_nil_iff.1 hrest).1
        rw [hb] at h1
        simp only [List.flatMap_nil, List.foldlM_nil, M.pure_inj] at h1
        subst h1
        have hr : readline text = (first, []) := by
          rw [ht]; exact readline_last first (hnl first (by simp))
        rw [hr]
        by_cases hf : first = []
        · rw [hf]; exact pyWhile_inr rfl
        · have := dimacs_loop [] [] (by simp) (by simp) (by simp) first hf {}
          simpa [joinWith] using this
      | cons x xs =>
        rw [hrest] at htext
        have : text = first ++ '\n' :: joinWith ['\n'] (x :: xs) := by
          rw [← htext]; simp [joinWith]
        have hr : readline text = (first ++ ['\n'], joinWith ['\n'] (body ++ blanks)) := by
          rw [this, readline_cons _ _ (hnl first (by simp)), hrest]
        rw [hr]
        have := dimacs_loop body blanks (fun l hl => (hbody l hl).1) hblanks
          (fun l hl => hnl l (by simp [hl])) (first ++ ['\n']) (by simp) {}
        rw [this, foldlM_lines _ (fun l hl => (hbody l hl).2), h1]
    unfold parseDimacs
    rw [hloop, M.pure_bind, h2]
    rfl

/-- **C21** (for texts of the layout `GoodDimacs` whose clauses have one to three literals) Reading a DIMACS text yields a
set that says exactly what the text says.  What is missing: the statement is false for other layouts, see
`C21_first_line_lost`, `C21_blank_line_truncates` and `C21_empty_clause_lost`. -/
theorem C21_dimacs_faithful_partial {text : Str} (h : GoodDimacs text) {F : Cnf} (hF : dimacsFormula text = some F)
    (h3 : ∀ c ∈ F, c ≠ [] ∧ c.length ≤ 3) :
    ∃ root : SetObj H, readInput .dimacs text = pure root ∧ ReadsAs root F := by
  refine ⟨_, by show parseDimacs text = _; exact parseDimacs_good h hF h3, readsAs_addAll F ?_⟩
  intro c hc
  refine ⟨Or.inl (le_trans (length_dedup_le c) (h3 c hc).2), ?_⟩
  unfold dimacsFormula at hF
  cases hts : mapOpt parseInt (dimacsTokens text) with
  | none => rw [hts] at hF; simp at hF
  | some ts =>
    rw [hts] at hF
    simp only [Option.map_some, Option.some.injEq] at hF
    subst hF
    exact cutClauses_zero [] ts (by simp) c hc

/-- Run the reader for `n` rounds (to evaluate it on concrete texts). -/
theorem parseDimacs_of_bounded {text : Str} {st : DimacsSt} (n : Nat)
    (h : pyWhileN dimacsStep n { dline := (readline text).1, rest := (readline text).2 } = some (.ok st)) :
    (parseDimacs text : M (SetObj H)) =
      pure (addAll {} 1 (if 0 < st.clause.length then st.done ++ [dedup st.clause] else st.done)) := by
  unfold parseDimacs
  have := pyWhile_of_pyWhileN n _ _ h
  show (pyWhile dimacsStep _ >>= _) = _
  rw [this]
  rfl

/-- Violation of C21: the first line is skipped even if it is a clause.  The text `1 0 / -1 0` is unsatisfiable, but the set
read is `-1`. -/
theorem C21_first_line_lost :
    dimacsFormula "1 0\n-1 0\n".toList = some [[1], [-1]] ∧
    ∃ root : SetObj H, readInput .dimacs "1 0\n-1 0\n".toList = pure root ∧ raws root.clauses = [[-1]] := by
  refine ⟨by decide, _, parseDimacs_of_bounded (st := { done := [[-1]] }) 5 (by rfl), rfl⟩

/-- Violation of C21: everything after a blank line is dropped, whatever it is. -/
theorem C21_blank_line_truncates (first : Str) (body : List Str) (blank : Str) (after : List Str)
    (hbody : ∀ l ∈ body, isBlank l = false ∧ GoodLine l) (hblank : isBlank blank = true)
    (hnl : ∀ l ∈ first :: body ++ blank :: after, '\n' ∉ l) :
    (readInput .dimacs (joinWith ['\n'] (first :: body ++ blank :: after)) : M (SetObj H)) =
      readInput .dimacs (joinWith ['\n'] (first :: body ++ [blank])) := by
  have hfirst : ∀ l : List Str, l ≠ [] → joinWith ['\n'] (first :: l) = first ++ '\n' :: joinWith ['\n'] l := by
    intro l hl
    cases l with
    | nil => exact absurd rfl hl
    | cons x xs => simp [joinWith]
  have hloop : ∀ after : List Str, (∀ l ∈ first :: body ++ blank :: after, '\n' ∉ l) →
      (parseDimacs (joinWith ['\n'] (first :: body ++ blank :: after)) : M (SetObj H)) =
      (body.foldlM (fun st l => dimacsLine st (strip l)) {}) >>= fun st =>
        pure (addAll {} 1 (if 0 < st.clause.length then st.done ++ [dedup st.clause] else st.done)) := by
    intro after hnl
    unfold parseDimacs
    rw [List.cons_append, hfirst _ (by simp), readline_cons _ _ (hnl first (by simp))]
    congr 1
    simp only
    -- the loop only sees the lines up to the blank one
    have key : ∀ (body : List Str), (∀ l ∈ body, isBlank l = false) → (∀ l ∈ body ++ blank :: after, '\n' ∉ l) →
        ∀ (d : Str), d ≠ [] → ∀ st, pyWhile dimacsStep { dline := d, rest := joinWith ['\n'] (body ++ blank :: after), st := st } =
          body.foldlM (fun st l => dimacsLine st (strip l)) st := by
      intro body
      have hsp : ∀ c ∈ ['\n'], isPySpace c = true := by
        intro c hc; simp at hc; subst hc; decide
      induction body with
      | nil =>
        intro _ hn d hd st
        have hde : d.isEmpty = false := by cases d with | nil => exact absurd rfl hd | cons => rfl
        have hline : strip (readline (joinWith ['\n'] (blank :: after))).1 = [] := by
          cases after with
          | nil =>
            show strip (readline blank).1 = []
            rw [readline_last blank (hn blank (by simp)), strip_eq_nil_iff]
            simpa [isBlank] using hblank
          | cons x xs =>
            have : joinWith ['\n'] (blank :: x :: xs) = blank ++ '\n' :: joinWith ['\n'] (x :: xs) := by simp [joinWith]
            rw [this, readline_cons _ _ (hn blank (by simp)), strip_append_space _ _ hsp, strip_eq_nil_iff]
            simpa [isBlank] using hblank
        rw [pyWhile_eq]
        simp only [List.nil_append, dimacsStep, hde, Bool.false_eq_true, if_false, hline]
        simp only [dimacsLine, List.isEmpty_nil, if_true, M.pure_bind]
        exact pyWhile_inr rfl
      | cons l ls ih =>
        intro hb hn d hd st
        have hde : d.isEmpty = false := by cases d with | nil => exact absurd rfl hd | cons => rfl
        have hj : joinWith ['\n'] (l :: ls ++ blank :: after) = l ++ '\n' :: joinWith ['\n'] (ls ++ blank :: after) := by
          rw [List.cons_append]
          cases hh : ls ++ blank :: after with
          | nil => simp at hh
          | cons x xs => simp [joinWith]
        have hne : strip l ≠ [] := by
          rw [Ne, strip_eq_nil_iff]
          have := hb l (by simp)
          intro hall
          rw [isBlank, Bool.eq_false_iff] at this
          exact this (List.all_eq_true.2 hall)
        rw [pyWhile_eq]
        simp only [dimacsStep, hde, Bool.false_eq_true, if_false, hj, readline_cons _ _ (hn l (by simp)),
          strip_append_space _ _ hsp, List.foldlM_cons]
        rcases M.cases (dimacsLine st (strip l)) with h | ⟨e, h⟩ | ⟨st', h⟩
        · rw [h]; rfl
        · rw [h]; rfl
        · rw [h]
          simp only [M.pure_bind]
          exact ih (fun l hl => hb l (by simp [hl])) (fun x hx => hn x (by simp at hx ⊢; exact Or.inr hx)) (strip l) hne st'
    exact key body (fun l hl => (hbody l hl).1) (fun l hl => hnl l (by simp at hl ⊢; exact Or.inr hl)) _ (by simp) {}
  show parseDimacs _ = parseDimacs _
  rw [hloop after hnl, hloop [] (fun l hl => hnl l (by
    simp only [List.cons_append, List.mem_cons, List.mem_append, List.not_mem_nil, or_false] at hl ⊢
    tauto))]

/-- Violation of C21: an empty clause (a lone `0`) is ignored, so an unsatisfiable text is read as a satisfiable set. -/
theorem C21_empty_clause_lost :
    dimacsFormula "p cnf 1 2\n1 0\n0\n".toList = some [[1], []] ∧
    ∃ root : SetObj H, readInput .dimacs "p cnf 1 2\n1 0\n0\n".toList = pure root ∧ raws root.clauses = [[1]] := by
  refine ⟨by decide, _, parseDimacs_of_bounded (st := { done := [[1]] }) 5 (by rfl), rfl⟩

/-- A concrete text of the required layout: clauses over several lines, several on one line, comments in between, a repeated
literal, a tautology, no final zero, trailing blank lines. -/
def exDimacs : Str := "c example\np cnf 4 4\n1 -2\n 3 0 2 2 0\nc more\n  4 -4 1 0\n-1   -3\n\n".toList

theorem exDimacs_good : GoodDimacs exDimacs := by
  refine ⟨"c example".toList, ["p cnf 4 4".toList, "1 -2".toList, " 3 0 2 2 0".toList, "c more".toList,
    "  4 -4 1 0".toList, "-1   -3".toList], [[], []], by decide, by decide, ?_, by simp [isBlank]⟩
  intro l hl
  simp only [List.mem_cons, List.not_mem_nil, or_false] at hl
  rcases hl with rfl | rfl | rfl | rfl | rfl | rfl
  · exact ⟨by decide, Or.inr (Or.inl (by decide))⟩
  · exact ⟨by decide, Or.inr (Or.inr (by decide))⟩
  · exact ⟨by decide, Or.inr (Or.inr (by decide))⟩
  · exact ⟨by decide, Or.inl (by decide)⟩
  · exact ⟨by decide, Or.inr (Or.inr (by decide))⟩
  · exact ⟨by decide, Or.inr (Or.inr (by decide))⟩

example : ∃ root : SetObj Unit, readInput .dimacs exDimacs = pure root ∧
    ReadsAs root [[1, -2, 3], [2, 2], [4, -4, 1], [-1, -3]] :=
  C21_dimacs_faithful_partial exDimacs_good (by decide) (by decide)

/-! ### C22 -/

theorem decoration_facts {c : Char} (h : isDecoration c) : c ≠ '&' ∧ c ≠ '|' ∧ (c = '(' ∨ c = ')' ∨ isPySpace c = true) := by
  rcases h with rfl | rfl | rfl | rfl | rfl <;> decide

theorem removeChar_append (c : Char) (a b : Str) : removeChar c (a ++ b) = removeChar c a ++ removeChar c b := by
  simp [removeChar]

theorem mem_removeChar {c d : Char} {s : Str} : d ∈ removeChar c s ↔ d ∈ s ∧ d ≠ c := by
  simp [removeChar]

/-- removing a character commutes with splitting at another one. -/
theorem splitOn_removeChar (sep c : Char) (hne : c ≠ sep) (s : Str) :
    splitOn sep (removeChar c s) = (splitOn sep s).map (removeChar c) := by
  induction s with
  | nil => rfl
  | cons d ds ih =>
    by_cases hd : d = sep
    · subst hd
      have : removeChar c (d :: ds) = d :: removeChar c ds := by
        unfold removeChar; rw [List.filter_cons_of_pos (by simpa using Ne.symm hne)]
      rw [this, splitOn, if_pos rfl, splitOn, if_pos rfl, ih]; rfl
    · by_cases hc : d = c
      · subst hc
        have : removeChar d (d :: ds) = removeChar d ds := by
          unfold removeChar; rw [List.filter_cons_of_neg (by simp)]
        rw [this, ih]
        conv_rhs => rw [splitOn, if_neg hd]
        cases h : splitOn sep ds with
        | nil => exact absurd h (splitOn_ne_nil _ _)
        | cons w ws => simp [removeChar]
      · have : removeChar c (d :: ds) = d :: removeChar c ds := by
          unfold removeChar; rw [List.filter_cons_of_pos (by simpa using hc)]
        rw [this, splitOn, if_neg hd, ih, splitOn, if_neg hd]
        cases h : splitOn sep ds with
        | nil => exact absurd h (splitOn_ne_nil _ _)
        | cons w ws =>
          have : removeChar c (d :: w) = d :: removeChar c w := by
            unfold removeChar; rw [List.filter_cons_of_pos (by simpa using hc)]
          simp [this]

/-- Remove both parentheses. -/
def unparen (s : Str) : Str := removeChar ')' (removeChar '(' s)

theorem parseInt_of_strip {s t : Str} (h : strip s = strip t) : parseInt s = parseInt t := by
  unfold parseInt; rw [h]

theorem strip_prepend_space (s t : Str) (ht : ∀ c ∈ t, isPySpace c = true) : strip (t ++ s) = strip s := by
  induction t with
  | nil => rfl
  | cons c cs ih =>
    rw [List.cons_append, strip_cons_space (ht c (by simp)), ih (fun x hx => ht x (by simp [hx]))]

theorem parse_writesLit {w : Str} {l : Int} (h : WritesLit w l) :
    parseInt (unparen w) = some l ∧ '|' ∉ w ∧ '&' ∉ w := by
  obtain ⟨pre, post, hdec, rfl⟩ := h
  have hp1 : '(' ∉ intStr l := not_mem_intStr (by decide) (by decide)
  have hp2 : ')' ∉ intStr l := not_mem_intStr (by decide) (by decide)
  have hun : unparen (pre ++ intStr l ++ post) = unparen pre ++ intStr l ++ unparen post := by
    unfold unparen
    rw [removeChar_append, removeChar_append, removeChar_append, removeChar_append, removeChar_of_not_mem hp1,
      removeChar_of_not_mem hp2]
  have hsp : ∀ s : Str, (∀ c ∈ s, isDecoration c) → ∀ c ∈ unparen s, isPySpace c = true := by
    intro s hs c hc
    unfold unparen at hc
    rw [mem_removeChar, mem_removeChar] at hc
    rcases (decoration_facts (hs c hc.1.1)).2.2 with h | h | h
    · exact absurd h hc.1.2
    · exact absurd h hc.2
    · exact h
  refine ⟨?_, ?_, ?_⟩
  · rw [hun, ← parseInt_intStr l]
    apply parseInt_of_strip
    rw [strip_append_space _ _ (hsp post (fun c hc => hdec c (by simp [hc]))),
      strip_prepend_space _ _ (hsp pre (fun c hc => hdec c (by simp [hc])))]
  · simp only [List.mem_append, not_or]
    exact ⟨⟨fun h => (decoration_facts (hdec _ (List.mem_append.2 (by tauto)))).2.1 rfl, not_mem_intStr (by decide) (by decide)⟩,
      fun h => (decoration_facts (hdec _ (List.mem_append.2 (by tauto)))).2.1 rfl⟩
  · simp only [List.mem_append, not_or]
    exact ⟨⟨fun h => (decoration_facts (hdec _ (List.mem_append.2 (by tauto)))).1 rfl, not_mem_intStr (by decide) (by decide)⟩,
      fun h => (decoration_facts (hdec _ (List.mem_append.2 (by tauto)))).1 rfl⟩

theorem exists_of_mem_left {α β : Type} {R : α → β → Prop} {l : List α} {m : List β} (h : List.Forall₂ R l m)
    {a : α} (ha : a ∈ l) : ∃ b ∈ m, R a b := by
  induction h with
  | nil => simp at ha
  | cons h1 _ ih =>
    rcases List.mem_cons.1 ha with rfl | ha
    · exact ⟨_, by simp, h1⟩
    · obtain ⟨b, hb, hr⟩ := ih ha
      exact ⟨b, by simp [hb], hr⟩

theorem mapOpt_forall₂ {α β : Type} {f : α → Option β} {l : List α} {m : List β}
    (h : List.Forall₂ (fun a b => f a = some b) l m) : mapOpt f l = some m := by
  induction h with
  | nil => rfl
  | cons h1 _ ih => simp [mapOpt, h1, ih]

theorem splitOn_unparen (sep : Char) (h1 : sep ≠ '(') (h2 : sep ≠ ')') (s : Str) :
    splitOn sep (unparen s) = (splitOn sep s).map unparen := by
  unfold unparen
  rw [splitOn_removeChar sep ')' (Ne.symm h2), splitOn_removeChar sep '(' (Ne.symm h1), List.map_map]
  rfl

theorem parse_writesClause {w : Str} {c : List Int} (h : WritesClause w c) :
    mapOpt parseInt (splitOn '|' (unparen w)) = some c ∧ '&' ∉ w := by
  obtain ⟨ws, hws, hne, rfl⟩ := h
  have hwne : ws ≠ [] := by
    rintro rfl; cases hws; exact hne rfl
  constructor
  · rw [splitOn_unparen '|' (by decide) (by decide), splitOn_joinWith '|' ws hwne, mapOpt_map]
    · apply mapOpt_forall₂
      exact hws.imp (fun a b hab => (parse_writesLit hab).1)
    · intro x hx
      obtain ⟨l, _, hl⟩ := exists_of_mem_left hws hx
      exact (parse_writesLit hl).2.1
  · intro hm
    rcases mem_joinWith hm with h | ⟨x, hx, h⟩
    · simp at h
    · obtain ⟨l, _, hl⟩ := exists_of_mem_left hws hx
      exact (parse_writesLit hl).2.2 h

theorem parse_writesCnf {w : Str} {F : Cnf} (h : WritesCnf w F) : parseLineClauses w = some (F.map dedup) := by
  obtain ⟨ws, hws, hne, rfl⟩ := h
  have hwne : ws ≠ [] := by
    rintro rfl; cases hws; exact hne rfl
  unfold parseLineClauses
  show mapOpt _ (splitOn '&' (unparen _)) = _
  rw [splitOn_unparen '&' (by decide) (by decide), splitOn_joinWith '&' ws hwne, mapOpt_map]
  · apply mapOpt_forall₂
    rw [List.forall₂_map_right_iff]
    exact hws.imp (fun a b hab => by rw [(parse_writesClause hab).1]; rfl)
  · intro x hx
    obtain ⟨c, _, hc⟩ := exists_of_mem_left hws hx
    exact (parse_writesClause hc).2

/-- What a clause object keeps of its literals, for clauses of any length. -/
theorem ofList_cases (c : List Int) (h0 : (0 : Int) ∉ c) (hn : c.Nodup) :
    ((Clause.ofList c).value = some true ∧ (Clause.ofList c).raw = [] ∧ Tautology c) ∨
    ((Clause.ofList c).value = none ∧ (Clause.ofList c).raw.Perm c) := by
  have hp := sortAbs_perm c
  have hnd : (sortAbs c).Nodup := hp.nodup_iff.2 hn
  have taut : ∀ x y, x ∈ sortAbs c → y ∈ sortAbs c → x ≠ y → x.natAbs = y.natAbs → Tautology c := by
    intro x y hx hy hxy e
    refine ⟨x, hp.mem_iff.1 hx, ?_⟩
    rcases Int.natAbs_eq_natAbs_iff.1 e with h | h
    · exact absurd h hxy
    · rw [h]; simpa using hp.mem_iff.1 hy
  unfold Clause.ofList
  simp only
  by_cases h1 : headPairEq (sortAbs c) = true
  · left
    rw [if_pos h1]
    have : tailPairEq ([] : List Int) = false := rfl
    simp only [this, Bool.false_eq_true, if_false, true_and]
    match hs : sortAbs c, h1 with
    | x :: y :: t, h1 =>
      simp only [headPairEq, decide_eq_true_eq] at h1
      rw [hs] at hnd taut
      exact taut x y (by simp) (by simp) (by rintro rfl; simp at hnd) h1
  · rw [if_neg h1]
    simp only
    by_cases h2 : tailPairEq (sortAbs c) = true
    · left
      rw [if_pos h2]
      simp only [true_and]
      match hs : sortAbs c, h2 with
      | [x, y, z], h2 =>
        simp only [tailPairEq, decide_eq_true_eq] at h2
        rw [hs] at hnd taut
        exact taut y z (by simp) (by simp) (by rintro rfl; simp at hnd) h2
    · right
      rw [if_neg h2]
      exact ⟨rfl, hp⟩

/-- Building a set from clauses of any length keeps the meaning. -/
theorem addAll_sat (F : Cnf) (h0 : ∀ c ∈ F, (0 : Int) ∉ c) (s : SetObj H) (i : Nat) (hv : s.value ≠ some false) (α : Assign) :
    (addAll s i (F.map dedup)).value ≠ some false ∧
    (Sat α (raws (addAll s i (F.map dedup)).clauses) ↔ Sat α (raws s.clauses) ∧ Sat α F) := by
  induction F generalizing s i with
  | nil => simp [addAll, hv, Sat]
  | cons c F ih =>
    have hF := fun c hc => h0 c (List.mem_cons_of_mem _ hc)
    have h0c := h0 c (by simp)
    have hcons : Sat α (c :: F) ↔ (∃ l ∈ c, litVal α l = true) ∧ Sat α F := by simp [Sat]
    simp only [List.map_cons, addAll]
    rcases ofList_cases (dedup c) (by simpa using h0c) (nodup_dedup c) with ⟨h1, h2, h3⟩ | ⟨h1, h2⟩
    · have ht : Tautology c := by
        obtain ⟨l, hl, hn⟩ := h3
        exact ⟨l, by simpa using hl, by simpa using hn⟩
      have hadd : s.addClause { Clause.ofList (dedup c) with initialIndex := i } =
          (if s.clauses.length = 0 then { s with value := some true } else s) := by
        unfold SetObj.addClause
        simp only [h1, hv, if_false, Option.some.injEq, true_and, reduceCtorEq, Bool.true_eq_false]
      rw [hadd]
      have htrue := sat_of_tautology h0c ht α
      by_cases hcs : s.clauses.length = 0
      · rw [if_pos hcs]
        obtain ⟨i1, i2⟩ := ih hF { s with value := some true } (i + 1) (by simp)
        refine ⟨i1, ?_⟩
        rw [i2, hcons]
        simp [htrue]
      · rw [if_neg hcs]
        obtain ⟨i1, i2⟩ := ih hF s (i + 1) hv
        refine ⟨i1, ?_⟩
        rw [i2, hcons]
        simp [htrue]
    · have hadd : s.addClause { Clause.ofList (dedup c) with initialIndex := i } =
          { s with clauses := s.clauses ++ [{ Clause.ofList (dedup c) with initialIndex := i }], value := none } := by
        unfold SetObj.addClause
        simp [hv, h1]
      rw [hadd]
      obtain ⟨i1, i2⟩ := ih hF { s with clauses := s.clauses ++ [{ Clause.ofList (dedup c) with initialIndex := i }], value := none }
        (i + 1) (by simp)
      refine ⟨i1, ?_⟩
      rw [i2, hcons]
      have : Sat α (raws (s.clauses ++ [{ Clause.ofList (dedup c) with initialIndex := i }])) ↔
          Sat α (raws s.clauses) ∧ ∃ l ∈ c, litVal α l = true := by
        have hm : ∀ l, l ∈ (Clause.ofList (dedup c)).raw ↔ l ∈ c := by
          intro l; rw [h2.mem_iff]; simp
        simp only [raws, List.map_append, List.map_cons, List.map_nil, Sat, List.mem_append, List.mem_singleton]
        constructor
        · intro hs
          refine ⟨fun d hd => hs d (Or.inl hd), ?_⟩
          obtain ⟨l, hl, hv⟩ := hs _ (Or.inr rfl)
          exact ⟨l, (hm l).1 hl, hv⟩
        · rintro ⟨hs, l, hl, hv⟩ d (hd | rfl)
          · exact hs d hd
          · exact ⟨l, (hm l).2 hl, hv⟩
      rw [this]
      tauto

theorem forall₂_append_last {R : Str → List Int → Prop} {t : Str} (hR : ∀ w c, R w c → R (w ++ t) c) (sep : Str)
    {ws : List Str} {F : List (List Int)} (h : List.Forall₂ R ws F) (hne : F ≠ []) :
    ∃ ws', List.Forall₂ R ws' F ∧ joinWith sep ws' = joinWith sep ws ++ t := by
  induction h with
  | nil => exact absurd rfl hne
  | @cons w c ws F h1 h2 ih =>
    cases h2 with
    | nil => exact ⟨[w ++ t], by constructor; exact hR _ _ h1; constructor, by simp [joinWith]⟩
    | @cons w' c' ws' F' h3 h4 =>
      obtain ⟨us, hu, hj⟩ := ih (by simp)
      refine ⟨w :: us, List.Forall₂.cons h1 hu, ?_⟩
      cases hu with
      | cons _ _ => simp only [joinWith] at hj ⊢; rw [hj]; simp [joinWith]

theorem forall₂_append_lastLit {t : Str} (ht : ∀ c ∈ t, isDecoration c) (sep : Str)
    {ws : List Str} {F : List Int} (h : List.Forall₂ WritesLit ws F) (hne : F ≠ []) :
    ∃ ws', List.Forall₂ WritesLit ws' F ∧ joinWith sep ws' = joinWith sep ws ++ t := by
  have hR : ∀ w c, WritesLit w c → WritesLit (w ++ t) c := by
    rintro w c ⟨pre, post, hd, rfl⟩
    refine ⟨pre, post ++ t, ?_, by simp⟩
    intro x hx
    simp only [List.mem_append] at hx
    rcases hx with hx | hx | hx
    · exact hd x (by simp [hx])
    · exact hd x (by simp [hx])
    · exact ht x hx
  induction h with
  | nil => exact absurd rfl hne
  | @cons w c ws F h1 h2 ih =>
    cases h2 with
    | nil => exact ⟨[w ++ t], by constructor; exact hR _ _ h1; constructor, by simp [joinWith]⟩
    | @cons w' c' ws' F' h3 h4 =>
      obtain ⟨us, hu, hj⟩ := ih (by simp)
      refine ⟨w :: us, List.Forall₂.cons h1 hu, ?_⟩
      cases hu with
      | cons _ _ => simp only [joinWith] at hj ⊢; rw [hj]; simp [joinWith]

theorem writesCnf_newline {w : Str} {F : Cnf} (h : WritesCnf w F) : WritesCnf (w ++ ['\n']) F := by
  obtain ⟨ws, hws, hne, rfl⟩ := h
  have hR : ∀ w c, WritesClause w c → WritesClause (w ++ ['\n']) c := by
    rintro w c ⟨us, hu, hne, rfl⟩
    obtain ⟨us', h1, h2⟩ := forall₂_append_lastLit (t := ['\n']) (by
      intro c hc; simp at hc; subst hc; unfold isDecoration; tauto) ['|'] hu hne
    exact ⟨us', h1, hne, h2.symm⟩
  obtain ⟨ws', h1, h2⟩ := forall₂_append_last hR ['&'] hws hne
  exact ⟨ws', h1, hne, h2.symm⟩

theorem writesCnf_ne_nil {w : Str} {F : Cnf} (h : WritesCnf w F) : w ≠ [] := by
  obtain ⟨ws, hws, hne, rfl⟩ := h
  cases hws with
  | nil => exact absurd rfl hne
  | @cons v c ws F h1 h2 =>
    apply joinWith_ne_nil
    refine ⟨v, by simp, ?_⟩
    obtain ⟨us, hu, hne, rfl⟩ := h1
    cases hu with
    | nil => exact absurd rfl hne
    | @cons u l us F h1 h2 =>
      apply joinWith_ne_nil
      obtain ⟨pre, post, _, rfl⟩ := h1
      exact ⟨pre ++ intStr l ++ post, by simp, by simp [intStr_ne_nil]⟩

theorem readInput_slf {w rest : Str} {F : Cnf} (hw : WritesCnf w F) (hnl : '\n' ∉ w) (text : Str)
    (ht : text = w ∨ text = w ++ '\n' :: rest) :
    (readInput .slf text : M (SetObj H)) = pure (addAll {} 1 (F.map dedup)) := by
  have key : ∀ v, WritesCnf v F → (SetObj.ofLine v : SetObj H) = addAll {} 1 (F.map dedup) := by
    intro v hv
    unfold SetObj.ofLine
    have : v.isEmpty = false := by
      cases h : v with | nil => exact absurd h (writesCnf_ne_nil hv) | cons => rfl
    rw [this, parse_writesCnf hv]
    simp
  show pure (SetObj.ofLine (readline text).1) = _
  rcases ht with rfl | rfl
  · rw [readline_last _ hnl, key _ hw]
  · rw [readline_cons _ _ hnl, key _ (writesCnf_newline hw)]

/-- **C22** (reading) The first line of a file holding the single-line form of `F`, with any spacing and parentheses, is read
as a set that says exactly what `F` says; if no clause hides a tautology among more than three literals, it is the
canonical form of `F`. -/
theorem C22_line_faithful {w rest : Str} {F : Cnf} (hw : WritesCnf w F) (hnl : '\n' ∉ w) (h0 : ∀ c ∈ F, (0 : Int) ∉ c)
    (text : Str) (ht : text = w ∨ text = w ++ '\n' :: rest) :
    ∃ root : SetObj H, readInput .slf text = pure root ∧ root.value ≠ some false ∧
      (∀ α, Sat α (raws root.clauses) ↔ Sat α F) ∧
      ((∀ c ∈ F, (dedup c).length ≤ 3 ∨ ¬ Tautology c) → ReadsAs root F) := by
  refine ⟨_, readInput_slf hw hnl text ht, ?_, ?_, ?_⟩
  · exact (addAll_sat F h0 {} 1 (by simp) (fun _ => true)).1
  · intro α
    rw [(addAll_sat F h0 {} 1 (by simp) α).2]
    simp [raws, Sat]
  · intro h3
    exact readsAs_addAll F (fun c hc => ⟨h3 c hc, h0 c hc⟩)

/-- **C22** (round trip) Reading back the serialised body of an undecided set whose clauses are canonical yields the same
clauses in the same order. -/
theorem C22_roundtrip {s : SetObj H} {w : Str} (hv : s.value = none) (hw : s.toStr = pure w)
    (hc : ∀ c ∈ s.clauses, c.raw ≠ [] ∧ c.raw.Pairwise fun a b => a.natAbs < b.natAbs) (rest : Str) :
    ∃ t : SetObj H, readInput .slf (w ++ '\n' :: rest) = pure t ∧ readInput .slf w = pure t ∧
      raws t.clauses = raws s.clauses ∧ t.value = none := by
  have hne : s.clauses ≠ [] := by
    intro e
    unfold SetObj.toStr at hw
    rw [hv, e] at hw
    simp at hw
  have hb := toStr_ok hv hne
  rw [hb] at hw
  have hw : bodyStr s.clauses = w := (M.pure_inj _ _).1 hw
  subst hw
  have hcne := fun c hcm => (hc c hcm).1
  have hwr : WritesCnf (bodyStr s.clauses) (raws s.clauses) := by
    rw [bodyStr_eq hcne]
    refine ⟨s.clauses.map (fun c => clauseStr c.raw), ?_, by simpa [raws] using hne, by
      simp [raws, Function.comp_def]⟩
    unfold raws
    rw [List.forall₂_map_left_iff, List.forall₂_map_right_iff, List.forall₂_same]
    intro c hcm
    refine ⟨c.raw.map intStr, ?_, hcne c hcm, rfl⟩
    rw [List.forall₂_map_left_iff, List.forall₂_same]
    exact fun l _ => ⟨[], [], by simp, by simp⟩
  have hnl : '\n' ∉ bodyStr s.clauses := not_mem_bodyStr (by decide) (by decide) (by decide) (by decide)
  refine ⟨_, readInput_slf hwr hnl _ (Or.inr rfl), readInput_slf (rest := []) hwr hnl _ (Or.inl rfl), ?_⟩
  have h2 : (raws s.clauses).map dedup = raws s.clauses := by
    conv_rhs => rw [← List.map_id (raws s.clauses)]
    apply List.map_congr_left
    intro c hcm
    obtain ⟨d, hd, rfl⟩ := List.mem_map.1 hcm
    apply dedup_of_nodup
    exact List.Nodup.of_map _ (Asc.nodup (hc d hd).2)
  rw [h2, addAll_asc _ _ _ _ (by simp) (by simpa [raws] using hne)]
  · exact ⟨by simp, rfl⟩
  · intro c hcm
    obtain ⟨d, hd, rfl⟩ := List.mem_map.1 hcm
    exact (hc d hd).2

/-- A formula with decorations. -/
def exLine : Str := "(1 | -2|3) & ( 4|4 ) & 5|-5".toList

theorem exLine_writes : WritesCnf exLine [[1, -2, 3], [4, 4], [5, -5]] := by
  refine ⟨["(1 | -2|3) ".toList, " ( 4|4 ) ".toList, " 5|-5".toList], ?_, by simp, by decide⟩
  refine .cons ⟨["(1 ".toList, " -2".toList, "3) ".toList], .cons ⟨['('], [' '], ?_, by decide⟩
    (.cons ⟨[' '], [], ?_, by decide⟩ (.cons ⟨[], [')', ' '], ?_, by decide⟩ .nil)), by simp, by decide⟩
    (.cons ⟨[" ( 4".toList, "4 ) ".toList], .cons ⟨[' ', '(', ' '], [], ?_, by decide⟩
      (.cons ⟨[], [' ', ')', ' '], ?_, by decide⟩ .nil), by simp, by decide⟩
    (.cons ⟨[" 5".toList, "-5".toList], .cons ⟨[' '], [], ?_, by decide⟩ (.cons ⟨[], [], ?_, by decide⟩ .nil),
      by simp, by decide⟩ .nil)) <;>
  · intro c hc
    simp at hc <;> (unfold isDecoration; tauto)

example : ∃ root : SetObj Unit, readInput .slf (exLine ++ '\n' :: "anything".toList) = pure root ∧
    ReadsAs root [[1, -2, 3], [4, 4], [5, -5]] := by
  obtain ⟨root, h1, _, _, h4⟩ := C22_line_faithful (H := Unit) exLine_writes (by decide) (by decide) _ (Or.inr rfl)
  exact ⟨root, h1, h4 (by decide)⟩

/-- A line that does not parse is reported on the console only: the set is empty and `Main` does nothing more. -/
theorem C22_malformed_is_silent [DecidableEq H] (hash : Str → H) (ma : MainArgs) (env : EnvChoice) (g : Gdb H) (text : Str)
    (hbad : parseLineClauses (readline text).1 = none) (hm : ma.args.multiply = none) :
    mainRun hash ma env g .slf text = some {} := by
  have hread : (readInput .slf text : M (SetObj H)) = pure {} := by
    show pure (SetObj.ofLine (readline text).1) = _
    unfold SetObj.ofLine
    rw [hbad]
    simp
  unfold mainRun mainBody
  rw [hread]
  simp only [M.pure_bind]
  cases hf : ma.args.factorize
  · simp [hm, mainSolve]; rfl
  · simp [hm, mainSolve, factPreprocess]; rfl

example : parseLineClauses (readline "1|x&2".toList).1 = none := by decide

/-! ### C23 -/

/-- **C23** is violated: whatever formula is given with `-l` and whatever the other options, the run logs an
UnboundLocalError (or refuses the empty string) and reports no verdict. -/
theorem C23_line_option_refuted [DecidableEq H] (hash : Str → H) (ma : MainArgs) (env : EnvChoice) (g : Gdb H) (text : Str) :
    mainRun hash ma env g .sl text =
      some { error := some (if text = [] then .exception else .unboundLocalError) } := by
  unfold mainRun mainBody readInput
  cases text with
  | nil => simp; rfl
  | cons c cs => simp [getCnfSet]; rfl

/-! ### C24 and `Main` as a whole -/

theorem forall₂_proper {R F : Cnf} (h : List.Forall₂ (fun r c => (∀ l, l ∈ r ↔ l ∈ c) ∧ r.Pairwise fun a b => a.natAbs < b.natAbs) R F)
    (hF : ∀ c ∈ F, c ≠ [] ∧ (0 : Int) ∉ c) : Proper R := by
  intro r hr
  obtain ⟨c, hc, h1, h2⟩ := exists_of_mem_left h hr
  obtain ⟨hne, h0⟩ := hF c hc
  refine ⟨?_, Asc.nodup h2, fun hm => h0 ((h1 0).1 hm)⟩
  rintro rfl
  cases c with
  | nil => exact hne rfl
  | cons x xs => exact absurd ((h1 x).2 (by simp)) (by simp)

/-- **C24** is violated: if all clauses are tautologies, the run logs a ValueError and reports no verdict, although the
formula is true under every assignment. -/
theorem C24_tautologies_refuted [DecidableEq H] (hash : Str → H) (ma : MainArgs) (env : EnvChoice) (g : Gdb H)
    {ty : InputType} {text : Str} {root : SetObj H} {F : Cnf} (hread : readInput ty text = pure root) (hR : ReadsAs root F)
    (hne : F ≠ []) (ht : ∀ c ∈ F, Tautology c) (hm : ma.args.multiply = none) :
    mainRun hash ma env g ty text = some { error := some .valueError } := by
  have hcl : root.clauses = [] := by
    have := hR.clauses
    have hnil : (F.filter fun c => decide (¬ Tautology c)) = [] := by
      rw [List.filter_eq_nil_iff]; simpa using ht
    rw [hnil, List.forall₂_nil_right_iff] at this
    simpa [raws] using this
  have hval : root.value = some true := by rw [hR.value, if_pos ⟨hne, ht⟩]
  have hsolve : ∀ (a : Args) (r : SetObj H), r.clauses = [] → r.value = some true →
      solveSet hash a env g r = raise .valueError := by
    intro a r h1 h2
    have h3 : r.toStr = pure ['T'] := by unfold SetObj.toStr; rw [h2]
    have h4 : ∀ x : SetObj H, x.clauses = [] → x.toLo a.mode a.sortBySize a.thief = raise .valueError := by
      intro x hx
      have hren : ∀ y : SetObj H, y.clauses = [] → y.renameVars = raise .valueError := by
        intro y hy
        unfold SetObj.renameVars
        rw [hy]
        rfl
      unfold SetObj.toLo
      have e1 : ({ x with clauses := isort lenIdxLt [] } : SetObj H).clauses = [] := rfl
      simp only
      rw [hren]
      · rfl
      · have hs1 : (if a.thief = true then x.sortByLenIdx else x).clauses = [] := by
          split
          · simp [SetObj.sortByLenIdx, hx, isort]
          · exact hx
        generalize (if a.thief = true then x.sortByLenIdx else x) = y at hs1
        split
        · unfold SetObj.sortByLength
          rw [hs1]
          simpa [SetObj.firstNonempty] using hs1
        · exact hs1
    unfold solveSet
    rw [h3, M.pure_bind]
    unfold prepareRoot
    simp only
    rw [h4 { r with originalValues := r.getVariables.map fun v => (v, v) } h1]
    rfl
  unfold mainRun mainBody
  rw [hread]
  simp only [M.pure_bind]
  have hfp : factPreprocess root = none := by unfold factPreprocess; rw [hcl]
  have hmain : ∀ (ma' : MainArgs) (info : Option FactInfo), mainSolve hash ma' ty env g info [] root = raise .valueError := by
    intro ma' info
    unfold mainSolve
    rw [if_pos (Or.inr (by rw [hval]; simp))]
    have hh : ∃ k, root.getHash hash false = pure (k, { root with computedHash := some k }) := by
      unfold SetObj.getHash
      have : root.toStr = pure ['T'] := by unfold SetObj.toStr; rw [hval]
      cases hc : root.computedHash with
      | none => exact ⟨hash ['T'], by rw [this]; rfl⟩
      | some k => exact ⟨k, by simp only; rw [← hc]⟩
    obtain ⟨k, hk⟩ := hh
    rw [hk]
    simp only [M.pure_bind]
    unfold solveTask
    rw [hsolve ma'.args { root with computedHash := some k } hcl hval]
    rfl
  cases hf : ma.args.factorize
  · simp [hm, hmain]; rfl
  · simp [hm, hfp, hmain]; rfl

example : ∃ root : SetObj Str, readInput .slf "1|-1&2|3|-3".toList = pure root ∧ ReadsAs root [[1, -1], [2, 3, -3]] := by
  have hw : WritesCnf "1|-1&2|3|-3".toList [[1, -1], [2, 3, -3]] := by
    refine ⟨["1|-1".toList, "2|3|-3".toList], ?_, by simp, by decide⟩
    exact .cons ⟨["1".toList, "-1".toList], .cons ⟨[], [], by simp, by decide⟩ (.cons ⟨[], [], by simp, by decide⟩ .nil), by simp, by decide⟩
      (.cons ⟨["2".toList, "3".toList, "-3".toList], .cons ⟨[], [], by simp, by decide⟩ (.cons ⟨[], [], by simp, by decide⟩
        (.cons ⟨[], [], by simp, by decide⟩ .nil)), by simp, by decide⟩ .nil)
  obtain ⟨root, h1, _, _, h4⟩ := C22_line_faithful (H := Str) (rest := []) hw (by decide) (by decide) _ (Or.inl rfl)
  exact ⟨root, h1, h4 (by decide)⟩

/-- Nothing given with `-l` is ever read. -/
theorem readInput_not_sl {ty : InputType} {text : Str} {root : SetObj H} (h : readInput ty text = pure root) : ty ≠ .sl := by
  rintro rfl
  unfold readInput at h
  split at h
  · exact absurd h (M.raise_ne_pure _ _)
  · exact absurd h (M.raise_ne_pure _ _)

/-- `Main` end to end on a readable input, without task options and global DB. -/
theorem main_run [DecidableEq H] (hash : Str → H) {ma : MainArgs} (ha : Local ma.args)
    (hfact : ma.args.factorize = false) (hm : ma.args.multiply = none) {env : EnvChoice} (hf : Fair ma.args env) (g : Gdb H)
    {ty : InputType} {text : Str} {root : SetObj H} {F : Cnf} (hread : readInput ty text = pure root) (hR : ReadsAs root F)
    (hF : ∀ c ∈ F, c ≠ [] ∧ (0 : Int) ∉ c) (ht : ∃ c ∈ F, ¬ Tautology c)
    (hcoll : ∀ k, NoCollisions hash ma.args { root with computedHash := some k }) :
    ∃ out rep, mainRun hash ma env g ty text = some out ∧ out.report = some rep ∧
      (rep.isSat = true ↔ Satisfiable F) ∧
      (rep.isSat = true → ∃ d, rep.solution = some d ∧ SolKeys d ∧ MakesTrue d (F.filter fun c => decide (¬ Tautology c))) ∧
      ((ma.outputSolution = true → ty ≠ .sl) → out.error = none ∧
        (ma.verify = true → rep.isSat = true → out.verified = some true) ∧
        (ma.outputSolution = true → rep.isSat = true → ∀ d, rep.solution = some d →
          out.solutionFile = some (formatSolution d)) ∧
        (rep.isSat = false → out.solutionFile = none)) ∧
      (ma.outputSolution = true → ty = .sl → rep.isSat = true →
        out.solutionFile = none ∧ out.verified = none ∧ out.error = some .attributeError) := by
  have hprop : Proper (raws root.clauses) :=
    forall₂_proper hR.clauses (fun c hc => hF c (List.mem_filter.1 hc).1)
  have hne : raws root.clauses ≠ [] := by
    intro e
    have := hR.clauses
    rw [e, List.forall₂_nil_left_iff, List.filter_eq_nil_iff] at this
    obtain ⟨c, hc, hn⟩ := ht
    exact (this c hc) (by simpa using hn)
  have hclne : root.clauses ≠ [] := by intro e; apply hne; rw [e]; rfl
  have hval : root.value = none := by
    rw [hR.value, if_neg]
    rintro ⟨_, hall⟩
    obtain ⟨c, hc, hn⟩ := ht
    exact hn (hall c hc)
  have hh : ∃ k, root.getHash hash false = pure (k, { root with computedHash := some k }) := by
    unfold SetObj.getHash
    have := toStr_ok hval hclne
    cases hc : root.computedHash with
    | none => exact ⟨hash (bodyStr root.clauses), by rw [this]; rfl⟩
    | some k => exact ⟨k, by simp only; rw [← hc]⟩
  obtain ⟨k, hk⟩ := hh
  have hin : Input (raws root.clauses) { root with computedHash := some k } :=
    ⟨SameClauses.refl _, hval, hR.fnm, hR.ev⟩
  obtain ⟨rep, hrep⟩ := C03_terminates hash ha hf g hprop hne hin
  have hsol := C04_solution_correct hash ha hf.main hprop hne hin hrep
  have hiff := verdict_iff hash ha hf.main hprop hne hin (hcoll k) hrep
  have htr : truthy rep.solution = rep.isSat := by
    cases hb : rep.isSat
    · have : rep.solution = none := by
        cases hs : rep.solution with
        | none => rfl
        | some d => have := (solveSet_verdict hash ha hf.main hprop hne hin hrep).1.2 (by rw [hs]; rfl); rw [hb] at this; simp at this
      rw [this]; rfl
    · obtain ⟨d, h1, h2, h3⟩ := hsol hb
      rw [h1]
      cases d with
      | nil =>
        obtain ⟨c, hc⟩ := List.exists_mem_of_ne_nil _ hne
        obtain ⟨l, _, hl⟩ := h3 c hc
        simp [partialVal] at hl
      | cons p d => rfl
  have hrun : mainRun hash ma env g ty text = some (if ma.outputSolution && rep.isSat && decide (ty = .sl) then
      ({ report := some rep, error := some .attributeError } : MainOut H)
      else ({
      report := some rep,
      solutionFile := (if ma.outputSolution && rep.isSat
        then some (formatSolution (rep.solution.getD [])) else none : Option Str),
      verified := (if ma.verify && rep.isSat
        then some (verifySolution root.clauses (rep.solution.getD [])) else none : Option Bool) } : MainOut H)) := by
    have hpos : 0 < root.clauses.length ∨ root.value ≠ none := Or.inl (List.length_pos_iff.2 hclne)
    unfold mainRun mainBody
    rw [hread]
    simp only [M.pure_bind, hfact, Bool.false_eq_true, if_false, hm]
    unfold mainSolve
    rw [if_pos hpos, hk]
    simp only [M.pure_bind]
    unfold solveTask
    rw [hrep]
    simp only [M.pure_bind, hfact, Bool.false_eq_true, if_false, hm, htr]
    by_cases hc : (ma.outputSolution && rep.isSat && decide (ty = .sl)) = true
    · rw [if_pos hc, if_pos hc]; rfl
    · rw [if_neg hc, if_neg hc]; rfl
  refine ⟨_, rep, hrun, by split <;> rfl, ?_, ?_, ?_, ?_⟩
  · rw [hiff]
    constructor
    · rintro ⟨α, h⟩; exact ⟨α, (hR.same α).1 h⟩
    · rintro ⟨α, h⟩; exact ⟨α, (hR.same α).2 h⟩
  · intro hs
    obtain ⟨d, h1, hkeys, h3⟩ := hsol hs
    refine ⟨d, h1, hkeys, ?_⟩
    intro c hc
    obtain ⟨r, hr, h4, _⟩ := exists_of_mem_left hR.clauses.flip hc
    obtain ⟨l, hl, hv⟩ := h3 r hr
    exact ⟨l, (h4 l).1 hl, hv⟩
  · intro hok
    have hcond : ¬ ((ma.outputSolution && rep.isSat && decide (ty = .sl)) = true) := by
      simp only [Bool.and_eq_true, decide_eq_true_eq]
      rintro ⟨⟨h1, _⟩, h2⟩
      exact hok h1 h2
    rw [if_neg hcond]
    refine ⟨rfl, ?_, ?_, ?_⟩
    · intro hv hs
      obtain ⟨d, h1, h2, h3⟩ := hsol hs
      show (if (ma.verify && rep.isSat) = true then _ else _) = _
      rw [hv, hs]
      simp only [Bool.and_self, if_true, h1, Option.getD_some, Option.some.injEq]
      exact (C25_verify_exact root.clauses (fun c hc => (hprop c.raw (List.mem_map.2 ⟨c, hc, rfl⟩)).2.2) d (SolKeys.nodup h2)).2 h3
    · intro ho hs d hd
      show (if (ma.outputSolution && rep.isSat) = true then _ else _) = _
      rw [ho, hs, hd]; rfl
    · intro hs
      show (if (ma.outputSolution && rep.isSat) = true then _ else _) = _
      rw [hs, Bool.and_false]; rfl
  · intro ho hty hs
    rw [if_pos (by simp [ho, hty, hs])]
    exact ⟨rfl, rfl, rfl⟩

/-- **C24** (inputs with at least one clause that is not a tautology) and `Main` end to end: a readable input (through
`C21_dimacs_faithful_partial` or `C22_line_faithful`) is reported satisfiable exactly when it is, the solution makes every
clause of the input that is not a tautology true, and `-verify` answers VERIFIED.  No task options, no global DB. -/
theorem C24_main_verdict_partial [DecidableEq H] (hash : Str → H) {ma : MainArgs} (ha : Local ma.args)
    (hfact : ma.args.factorize = false) (hm : ma.args.multiply = none) {env : EnvChoice} (hf : Fair ma.args env) (g : Gdb H)
    {ty : InputType} {text : Str} {root : SetObj H} {F : Cnf} (hread : readInput ty text = pure root) (hR : ReadsAs root F)
    (hF : ∀ c ∈ F, c ≠ [] ∧ (0 : Int) ∉ c) (ht : ∃ c ∈ F, ¬ Tautology c)
    (hcoll : ∀ k, NoCollisions hash ma.args { root with computedHash := some k }) :
    ∃ out rep, mainRun hash ma env g ty text = some out ∧ out.report = some rep ∧ out.error = none ∧
      (rep.isSat = true ↔ Satisfiable F) ∧
      (rep.isSat = true → ∃ d, rep.solution = some d ∧ MakesTrue d (F.filter fun c => decide (¬ Tautology c))) ∧
      (ma.verify = true → rep.isSat = true → out.verified = some true) := by
  obtain ⟨out, rep, h1, h2, h3, h4, h5, _⟩ := main_run hash ha hfact hm hf g hread hR hF ht hcoll
  have h6 := h5 fun _ => readInput_not_sl hread
  exact ⟨out, rep, h1, h2, h6.1, h3, fun hs => by obtain ⟨d, e1, _, e2⟩ := h4 hs; exact ⟨d, e1, e2⟩, h6.2.1⟩

/-! ### C46: the solution file -/

/-- A solution file makes the clause `c` true: it lists under `T` a variable of `c`, or under `F` a variable that `c`
negates. -/
def FileSatisfies (file : Str) (c : List Int) : Prop :=
  ∃ l ∈ c, (0 < l ∧ l ∈ listedUnder 'T' file) ∨ (l < 0 ∧ -l ∈ listedUnder 'F' file)

theorem fileSatisfies_of_makesTrue {d : Dict Int Bool} (hnd : d.keys.Nodup) {G : Cnf} (h0 : ∀ c ∈ G, (0 : Int) ∉ c)
    (h : MakesTrue d G) {c : List Int} (hc : c ∈ G) : FileSatisfies (formatSolution d) c := by
  obtain ⟨l, hl, hv⟩ := h c hc
  refine ⟨l, hl, ?_⟩
  have hl0 : l ≠ 0 := by rintro rfl; exact h0 c hc hl
  rcases Int.lt_or_gt_of_ne hl0 with hlt | hgt
  · right
    refine ⟨hlt, (C26_solution_file_get d hnd (-l)).2.2 ?_⟩
    have e : (l.natAbs : Int) = -l := by omega
    unfold partialVal at hv
    rw [e] at hv
    cases hg : d.get? (-l) with
    | none => rw [hg] at hv; simp at hv
    | some b => rw [hg] at hv; simp at hv; rw [if_pos hlt] at hv; rw [hv]
  · left
    refine ⟨hgt, (C26_solution_file_get d hnd l).1.2 ?_⟩
    have e : (l.natAbs : Int) = l := by omega
    unfold partialVal at hv
    rw [e] at hv
    cases hg : d.get? l with
    | none => rw [hg] at hv; simp at hv
    | some b => rw [hg] at hv; simp at hv; rw [if_neg (by omega)] at hv; rw [hv]

/-- **C46** (inputs with at least one clause that is not a tautology) With `-s` a satisfiable input gets a solution file, and reading the file back makes every
clause of the input true that is not a tautology; an unsatisfiable input gets none. -/
theorem C46_solution_file_partial [DecidableEq H] (hash : Str → H) {ma : MainArgs} (ha : Local ma.args)
    (hfact : ma.args.factorize = false) (hm : ma.args.multiply = none) (hs : ma.outputSolution = true) {env : EnvChoice}
    (hf : Fair ma.args env) (g : Gdb H)
    {ty : InputType} {text : Str} {root : SetObj H} {F : Cnf} (hread : readInput ty text = pure root)
    (hR : ReadsAs root F) (hF : ∀ c ∈ F, c ≠ [] ∧ (0 : Int) ∉ c) (ht : ∃ c ∈ F, ¬ Tautology c)
    (hcoll : ∀ k, NoCollisions hash ma.args { root with computedHash := some k }) :
    ∃ out, mainRun hash ma env g ty text = some out ∧
      (Satisfiable F → ∃ file, out.solutionFile = some file ∧ ∀ c ∈ F, ¬ Tautology c → FileSatisfies file c) ∧
      (¬ Satisfiable F → out.solutionFile = none) := by
  obtain ⟨out, rep, h1, h2, h3, h4, h5, _⟩ := main_run hash ha hfact hm hf g hread hR hF ht hcoll
  obtain ⟨_, _, h6, h7⟩ := h5 (fun _ => readInput_not_sl hread)
  refine ⟨out, h1, ?_, ?_⟩
  · intro hsat
    obtain ⟨d, e1, e2, e3⟩ := h4 (h3.2 hsat)
    refine ⟨formatSolution d, h6 hs (h3.2 hsat) d e1, ?_⟩
    intro c hc hn
    refine fileSatisfies_of_makesTrue (SolKeys.nodup e2) ?_ e3 (List.mem_filter.2 ⟨hc, by simpa using hn⟩)
    intro c hc
    exact (hF c (List.mem_filter.1 hc).1).2
  · intro hu
    apply h7
    cases hb : rep.isSat
    · rfl
    · exact absurd (h3.1 hb) hu

/-- The hypotheses together. -/
example : ∃ root : SetObj Str, readInput .slf "1|-2&2|3".toList = pure root ∧
    ReadsAs root [[1, -2], [2, 3]] ∧ Satisfiable [[1, -2], [2, 3]] ∧
    ∀ k, NoCollisions (fun s : Str => s) {} { root with computedHash := some k } := by
  have hw : WritesCnf "1|-2&2|3".toList [[1, -2], [2, 3]] := by
    refine ⟨["1|-2".toList, "2|3".toList], ?_, by simp, by decide⟩
    exact .cons ⟨["1".toList, "-2".toList], .cons ⟨[], [], by simp, by decide⟩ (.cons ⟨[], [], by simp, by decide⟩ .nil), by simp, by decide⟩
      (.cons ⟨["2".toList, "3".toList], .cons ⟨[], [], by simp, by decide⟩ (.cons ⟨[], [], by simp, by decide⟩ .nil),
        by simp, by decide⟩ .nil)
  obtain ⟨root, h1, _, _, h4⟩ := C22_line_faithful (H := Str) (rest := []) hw (by decide) (by decide) _ (Or.inl rfl)
  have hR := h4 (by decide)
  have hval : root.value = none := by
    rw [hR.value, if_neg]
    rintro ⟨_, hall⟩
    exact absurd (hall [1, -2] (by simp)) (by decide)
  have hF : Proper (raws root.clauses) := forall₂_proper hR.clauses (by decide)
  have hne : raws root.clauses ≠ [] := by
    intro e
    have := hR.clauses
    rw [e, List.forall₂_nil_left_iff] at this
    revert this; decide
  refine ⟨root, h1, hR, ⟨fun _ => true, by unfold Sat; decide⟩, ?_⟩
  intro k
  exact noCollisions_of_injective (fun _ _ h => h) _ (F := raws root.clauses) ⟨SameClauses.refl _, hval, hR.fnm, hR.ev⟩ hF hne

end NDP
