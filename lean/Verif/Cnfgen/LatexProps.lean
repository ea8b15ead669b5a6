import Verif.Cnfgen.Latex
/-
  C88: the LaTeX text shows the clauses of the formula, in order, and determines them.
-/
namespace NDP.Cnfgen
open NDP

/-- The text of a literal as a function. -/
def litText (l : Lit Str) : Str :=
  if l.1 then "           {".toList ++ l.2 ++ "}".toList
  else "{\\overline{".toList ++ sliceTo l.2 (findUnderscore l.2) ++ "}".toList ++ sliceFrom l.2 (findUnderscore l.2) ++ "}".toList

theorem take_idxOf_append {h i : Str} {c : Char} (hh : c ∉ h) : (h ++ c :: i).idxOf c = h.length := by
  rw [List.idxOf_append_of_notMem hh]; simp

theorem showsLit_litText (l : Lit Str) : ShowsLit l (litText l) := by
  obtain ⟨b, n⟩ := l
  cases b with
  | true => exact ShowsLit.pos n
  | false =>
    unfold litText findUnderscore
    simp only [Bool.false_eq_true, if_false]
    by_cases hm : '_' ∈ n
    · obtain ⟨h, i, rfl, hh⟩ := List.eq_append_cons_of_mem hm
      rw [if_pos hm, take_idxOf_append hh]
      unfold sliceTo sliceFrom
      rw [if_neg (by omega), if_neg (by omega)]
      simp only [Int.toNat_natCast, List.take_left', List.drop_left']
      exact ShowsLit.neg h i hh
    · rw [if_neg hm]
      rcases List.eq_nil_or_concat n with rfl | ⟨h, c, rfl⟩
      · exact ShowsLit.negEmpty
      · rw [List.concat_eq_append] at hm ⊢
        have e1 : sliceTo (h ++ [c]) (-1) = h := by unfold sliceTo; simp
        have e2 : sliceFrom (h ++ [c]) (-1) = [c] := by unfold sliceFrom; simp
        rw [e1, e2]
        have := ShowsLit.negPlain h c (fun hx => hm (by simp [hx])) (fun hx => hm (by simp [hx]))
        simpa using this

theorem ShowsLit.eq {l : Lit Str} {t : Str} (h : ShowsLit l t) : t = litText l := by
  unfold litText findUnderscore sliceTo sliceFrom
  cases h with
  | pos n => simp
  | neg h i hh =>
    rw [if_neg (by simp)]
    simp only [List.mem_append, List.mem_cons, true_or, or_true, if_true, take_idxOf_append hh]
    rw [if_neg (by omega), if_neg (by omega)]
    simp
  | negPlain h c hh hc =>
    have : '_' ∉ h ++ [c] := by simp [hh, Ne.symm hc]
    simp [this]
  | negEmpty => simp

/-- The text of a row as a function. -/
def rowText (full : Bool) (c : List (Lit Str)) : Str :=
  if c = [] then "\\square".toList
  else if full then joinWith " \\lor ".toList (c.map litText)
  else "\\left( ".toList ++ joinWith " \\lor ".toList (c.map litText) ++ " \\right)".toList

theorem showsRow_rowText (full : Bool) (c : List (Lit Str)) : ShowsRow full c (rowText full c) := by
  unfold rowText
  by_cases hc : c = []
  · subst hc; exact ShowsRow.empty
  · rw [if_neg hc]
    refine ShowsRow.lits hc ?_
    induction c with
    | nil => exact List.Forall₂.nil
    | cons l c ih =>
      refine List.Forall₂.cons (showsLit_litText l) ?_
      by_cases hc' : c = []
      · subst hc'; exact List.Forall₂.nil
      · exact ih hc'

theorem ShowsRow.eq {full : Bool} {c : List (Lit Str)} {t : Str} (h : ShowsRow full c t) : t = rowText full c := by
  unfold rowText
  cases h with
  | empty => simp
  | lits hc h =>
    rename_i ts
    rw [if_neg hc]
    have : ts = c.map litText := by
      clear hc
      induction h with
      | nil => rfl
      | cons h0 _ ih => rw [List.map_cons, ih, h0.eq]
    rw [this]

theorem mapM_eq_map {α β : Type} {f : α → M β} {g : α → β} {l : List α} (h : ∀ x ∈ l, f x = pure (g x)) :
    l.mapM f = pure (l.map g) := by
  induction l with
  | nil => rfl
  | cons x l ih =>
    rw [List.mapM_cons, h x (by simp), M.pure_bind, ih fun y hy => h y (by simp [hy]), M.pure_bind]
    rfl

/-- The clause of numbers `c` has the literals `k`. -/
theorem mapLiteral_uncompress {F : CNF Str} {c : List Int} {k : List (Lit Str)} (h : F.uncompress c = pure k) (h0 : ∀ l ∈ c, l ≠ 0) :
    c.mapM (mapLiteral id some F) = pure (k.map litText) ∧ k.length = c.length := by
  unfold CNF.uncompress at h
  induction c generalizing k with
  | nil =>
    have := (M.pure_inj _ _).1 h
    subst this
    exact ⟨rfl, rfl⟩
  | cons l c ih =>
    rw [List.mapM_cons] at h
    obtain ⟨x, hx, h⟩ := M.bind_eq_pure.1 h
    obtain ⟨k', hk, h⟩ := M.bind_eq_pure.1 h
    have := (M.pure_inj _ _).1 h
    subst this
    obtain ⟨v, hv, hx⟩ := M.bind_eq_pure.1 hx
    have := (M.pure_inj _ _).1 hx
    subst this
    obtain ⟨i1, i2⟩ := ih hk fun y hy => h0 y (by simp [hy])
    refine ⟨?_, by simp [i2]⟩
    rw [List.mapM_cons, i1]
    have : mapLiteral id some F l = pure (litText (decide (0 < l), v)) := by
      unfold mapLiteral litText
      rw [if_neg (h0 l (by simp)), hv, M.pure_bind]
      by_cases hl : l > 0
      · rw [if_pos hl]; simp [hl]
      · rw [if_neg hl]
        have : ¬ (0 < l) := hl
        simp only [this, decide_false, Bool.false_eq_true, if_false]
        rfl
    rw [this, M.pure_bind, M.pure_bind]
    rfl

/-- What comes before a row. -/
def rowStart (first full : Bool) : Str :=
  (if first then "\n&".toList else " \\\\\n&".toList) ++ (if full || first then "       ".toList else " \\land ".toList)

theorem writeClause_eq {F : CNF Str} {c : List Int} {k : List (Lit Str)} (h : F.uncompress c = pure k) (h0 : ∀ l ∈ c, l ≠ 0)
    (first full : Bool) : writeClause id some F c first full = pure (rowStart first full ++ rowText full k) := by
  obtain ⟨h1, h2⟩ := mapLiteral_uncompress h h0
  unfold writeClause rowStart rowText
  by_cases hc : c.length = 0
  · have : k = [] := List.eq_nil_of_length_eq_zero (by omega)
    subst this
    rw [if_pos hc, if_pos rfl]
  · have : k ≠ [] := by
      rintro rfl
      exact hc (by simpa using h2.symm)
    rw [if_neg hc, if_neg this, h1, M.pure_bind]
    cases full <;> rfl

/-- The page break. -/
def pageBreak : Str := "\n\\end{align}\\pagebreak".toList ++ "\n\\begin{align}".toList

/-- What the loop writes for the row `p.1` with number `p.2`. -/
def piece (full : Bool) (p : Str × Nat) : Str :=
  if p.2 % 40 = 0 ∧ p.2 ≠ 0 ∧ full = true then pageBreak ++ (rowStart true full ++ p.1)
  else rowStart (p.2 == 0) full ++ p.1

theorem writeAll_eq {F : CNF Str} {cs : List (List Int)} {ks : List (List (Lit Str))} (h : cs.mapM F.uncompress = pure ks)
    (h0 : ∀ c ∈ cs, ∀ l ∈ c, l ≠ 0) (full : Bool) (i : Nat) :
    (cs.zipIdx i).mapM (writeNth id some F full) = pure (((ks.map (rowText full)).zipIdx i).map (piece full)) := by
  induction cs generalizing ks i with
  | nil =>
    have := (M.pure_inj _ _).1 h
    subst this
    rfl
  | cons c cs ih =>
    rw [List.mapM_cons] at h
    obtain ⟨k, hk, h⟩ := M.bind_eq_pure.1 h
    obtain ⟨ks', hks, h⟩ := M.bind_eq_pure.1 h
    have := (M.pure_inj _ _).1 h
    subst this
    rw [List.zipIdx_cons, List.mapM_cons, ih hks (fun d hd => h0 d (by simp [hd])) (i + 1), List.map_cons, List.zipIdx_cons, List.map_cons]
    have : writeNth id some F full (c, i) = pure (piece full (rowText full k, i)) := by
      unfold writeNth piece
      simp only
      split
      · rw [writeClause_eq hk (h0 c (by simp)), M.pure_bind]; rfl
      · rw [writeClause_eq hk (h0 c (by simp))]
    rw [this, M.pure_bind, M.pure_bind]

theorem joinWith_cons_flatMap (sep : Str) (r : Str) (rs : List Str) : joinWith sep (r :: rs) = r ++ rs.flatMap (sep ++ ·) := by
  induction rs generalizing r with
  | nil => simp [joinWith]
  | cons s rs ih =>
    show r ++ sep ++ joinWith sep (s :: rs) = _
    rw [ih, List.flatMap_cons]
    simp [List.append_assoc]

/-- The separator of the rows of one page. -/
def rowSep (full : Bool) : Str := if full then " \\\\\n&       ".toList else " \\\\\n& \\land ".toList

theorem rowStart_false (full : Bool) : rowStart false full = rowSep full := by cases full <;> decide
theorem rowStart_true (full : Bool) : rowStart true full = "\n&       ".toList := by cases full <;> decide

theorem pageText_cons (full : Bool) (r : Str) (rs : List Str) :
    pageText full (r :: rs) = rowStart true full ++ r ++ rs.flatMap (rowSep full ++ ·) := by
  unfold pageText
  rw [joinWith_cons_flatMap, rowStart_true, List.append_assoc]
  rfl

theorem pieces_short (rs : List Str) (i : Nat) (hi : i ≠ 0) :
    ((rs.zipIdx i).map (piece false)).flatten = rs.flatMap (rowSep false ++ ·) := by
  induction rs generalizing i with
  | nil => rfl
  | cons r rs ih =>
    rw [List.zipIdx_cons, List.map_cons, List.flatten_cons, ih (i + 1) (by omega), List.flatMap_cons]
    unfold piece
    rw [if_neg (by simp)]
    have : ((r, i).2 == 0) = false := by simpa using hi
    rw [this, rowStart_false]

theorem pieces_full (rs : List Str) (i : Nat) (hi : i ≠ 0) : ∃ (cur : List Str) (pages : List (List Str)),
    rs = cur ++ pages.flatten ∧
    ((rs.zipIdx i).map (piece true)).flatten = cur.flatMap (rowSep true ++ ·) ++ pages.flatMap (fun p => pageBreak ++ pageText true p) ∧
    (∀ p ∈ pages, p ≠ [] ∧ p.length ≤ 40) ∧ (∀ p ∈ pages.dropLast, p.length = 40) ∧
    cur.length ≤ (40 - i % 40) % 40 ∧ (pages ≠ [] → cur.length = (40 - i % 40) % 40) := by
  induction rs generalizing i with
  | nil => exact ⟨[], [], rfl, rfl, by simp, by simp, by simp, by simp⟩
  | cons r rs ih =>
    obtain ⟨cur, pages, h1, h2, h3, h4, h5, h6⟩ := ih (i + 1) (by omega)
    rw [List.zipIdx_cons, List.map_cons, List.flatten_cons, h2]
    by_cases hm : i % 40 = 0
    · refine ⟨[], (r :: cur) :: pages, by simp [h1], ?_, ?_, ?_, by simp, fun _ => by simp [hm]⟩
      · unfold piece
        rw [if_pos ⟨hm, hi, rfl⟩, List.flatMap_cons, pageText_cons]
        simp [List.append_assoc]
      · intro p hp
        rcases List.mem_cons.1 hp with rfl | hp
        · refine ⟨by simp, ?_⟩
          rw [List.length_cons]
          omega
        · exact h3 p hp
      · intro p hp
        by_cases e : pages = []
        · subst e; simp at hp
        · rw [List.dropLast_cons_of_ne_nil e] at hp
          rcases List.mem_cons.1 hp with rfl | hp
          · rw [List.length_cons, h6 e]
            omega
          · exact h4 p hp
    · refine ⟨r :: cur, pages, by simp [h1], ?_, h3, h4, ?_, ?_⟩
      · unfold piece
        rw [if_neg (by simp [hm])]
        have : ((r, i).2 == 0) = false := by simpa using hi
        rw [this, rowStart_false, List.flatMap_cons]
        simp [List.append_assoc]
      · rw [List.length_cons]; omega
      · intro e
        rw [List.length_cons, h6 e]; omega

theorem showsClauses_pieces (full : Bool) (ks : List (List (Lit Str))) (hne : ks ≠ []) :
    ShowsClauses full ks ("\\begin{align}".toList ++ (((ks.map (rowText full)).zipIdx 0).map (piece full)).flatten ++ "\n\\end{align}".toList) := by
  have hrows : List.Forall₂ (ShowsRow full) ks (ks.map (rowText full)) := by
    rw [List.forall₂_map_right_iff]
    exact List.forall₂_same.2 fun c _ => showsRow_rowText full c
  obtain ⟨k, ks', rfl⟩ := List.exists_cons_of_ne_nil hne
  have hfirst : piece full (rowText full k, 0) = rowStart true full ++ rowText full k := by
    unfold piece; simp
  rw [List.map_cons, List.zipIdx_cons, List.map_cons, List.flatten_cons, hfirst]
  cases full with
  | false =>
    rw [pieces_short _ _ (by omega), ← pageText_cons]
    have := ShowsClauses.pages (full := false) (pages := [(k :: ks').map (rowText false)]) hne hrows (by simp) (by simp) (by simp) (by simp)
    simpa [joinWith] using this
  | true =>
    obtain ⟨cur, pages, h1, h2, h3, h4, h5, h6⟩ := pieces_full (ks'.map (rowText true)) (0 + 1) (by omega)
    rw [h2, ← List.append_assoc (rowStart true true ++ rowText true k), ← pageText_cons]
    have := ShowsClauses.pages (full := true) (pages := (rowText true k :: cur) :: pages) hne hrows (by simp [h1]) ?_ (by simp) ?_
    · rw [List.map_cons, joinWith_cons_flatMap, List.flatMap_map] at this
      exact this
    · intro p hp
      rcases List.mem_cons.1 hp with rfl | hp
      · simp
      · exact (h3 p hp).1
    · intro _
      constructor
      · intro p hp
        by_cases e : pages = []
        · subst e; simp at hp
        · rw [List.dropLast_cons_of_ne_nil e] at hp
          rcases List.mem_cons.1 hp with rfl | hp
          · rw [List.length_cons, h6 e]
          · exact h4 p hp
      · intro p hp
        rcases List.mem_cons.1 hp with rfl | hp
        · rw [List.length_cons]; omega
        · exact (h3 p hp).2

theorem coherent_lits {V : Type} [DecidableEq V] {F : CNF V} (h : F.coherent = true) :
    ∀ c ∈ F.clauses, ∀ l ∈ c, l ≠ 0 ∧ l.natAbs ≤ F.vars.length := by
  unfold CNF.coherent at h
  simp only [Bool.and_eq_true, List.all_eq_true, decide_eq_true_eq] at h
  intro c hc l hl
  have := h.2 c hc l hl
  exact ⟨by omega, this.2⟩

/-- The line that says how many variables and clauses there are. -/
def countLine (v c : Nat) : Str :=
  "\\noindent\\textbf{CNF with ".toList ++ natStr v ++ " variables and and ".toList ++ natStr c ++ " clauses:}\n".toList

/-- **C88, the text.** For every formula whose variables have strings as names, and whose clauses (as the user gets them
back) are `ks`: `latex` succeeds, and its text is what comes before the formula, in a full document the numbers of variables
and clauses, then all the clauses in order, one in each row, cut in a full document into pages of 40 rows. -/
theorem C88_latex (F : CNF Str) (hF : F.coherent = true) {ks : List (List (Lit Str))} (hk : F.clauses.mapM F.uncompress = pure ks)
    (exportHeader : Bool) (header : Str) (extra : Option Str) (full : Bool) :
    ∃ t, ShowsClauses full ks t ∧ latexText id some exportHeader header extra full F =
      pure (latexStart exportHeader header extra full ++ (if full then countLine F.vars.length ks.length else []) ++ t ++
        (if full then "\n\\end{document}".toList else [])) := by
  have h0 := coherent_lits hF
  have hw := writeAll_eq hk (fun c hc l hl => (h0 c hc l hl).1) full 0
  have hlen : ∀ {cs : List (List Int)} {ks : List (List (Lit Str))}, cs.mapM F.uncompress = pure ks → ks.length = cs.length := by
    intro cs
    induction cs with
    | nil =>
      intro ks hk
      have := (M.pure_inj _ _).1 hk
      subst this; rfl
    | cons c cs ih =>
      intro ks hk
      rw [List.mapM_cons] at hk
      obtain ⟨k, hk1, h⟩ := M.bind_eq_pure.1 hk
      obtain ⟨ks', hks, h⟩ := M.bind_eq_pure.1 h
      have := (M.pure_inj _ _).1 h
      subst this
      simp [ih hks]
  have hl := hlen hk
  have key : ∀ rows : Str, latexRows id some full F = pure rows → latexText id some exportHeader header extra full F =
      pure (latexStart exportHeader header extra full ++ (if full then countLine F.vars.length ks.length else []) ++
        ("\\begin{align}".toList ++ rows ++ "\n\\end{align}".toList) ++ (if full then "\n\\end{document}".toList else [])) := by
    intro rows hr
    unfold latexText countLine
    rw [if_neg (by rw [hF]; simp), hr, M.pure_bind, hl]
    simp only [List.append_assoc]
  by_cases hn : F.clauses.length = 0
  · have hks : ks = [] := List.eq_nil_of_length_eq_zero (by omega)
    have e : "\\begin{align}".toList ++ "\n   \\top".toList ++ "\n\\end{align}".toList =
      "\\begin{align}\n   \\top\n\\end{align}".toList := by decide
    have hs : ShowsClauses full ks ("\\begin{align}".toList ++ "\n   \\top".toList ++ "\n\\end{align}".toList) := by
      rw [e, hks]; exact ShowsClauses.none
    exact ⟨_, hs, key _ (if_pos hn)⟩
  · have hne : ks ≠ [] := by
      rintro rfl
      exact hn (by simpa using hl.symm)
    refine ⟨_, showsClauses_pieces full ks hne, key _ ?_⟩
    unfold latexRows
    rw [if_neg hn, hw, M.pure_bind]

/-! ### The text determines the clauses -/

/-- No blanks or line breaks in the names. -/
def PlainNames (ks : List (List (Lit Str))) : Prop := ∀ k ∈ ks, ∀ l ∈ k, ' ' ∉ l.2 ∧ '\n' ∉ l.2

/-- Empty, or begins with a blank. -/
def Blank (r : Str) : Prop := r = [] ∨ ∃ s, r = ' ' :: s

theorem word_split {w w' r r' : Str} (hw : ' ' ∉ w) (hw' : ' ' ∉ w') (hr : Blank r) (hr' : Blank r') (h : w ++ r = w' ++ r') :
    w = w' ∧ r = r' := by
  induction w generalizing w' with
  | nil =>
    cases w' with
    | nil => exact ⟨rfl, h⟩
    | cons c w' =>
      rw [List.nil_append, List.cons_append] at h
      rcases hr with rfl | ⟨s, rfl⟩
      · simp at h
      · simp only [List.cons.injEq] at h
        exact absurd (h.1 ▸ List.mem_cons_self) hw'
  | cons c w ih =>
    cases w' with
    | nil =>
      rw [List.nil_append, List.cons_append] at h
      rcases hr' with rfl | ⟨s, rfl⟩
      · simp at h
      · simp only [List.cons.injEq] at h
        exact absurd (h.1 ▸ List.mem_cons_self) hw
    | cons c' w' =>
      simp only [List.cons_append, List.cons.injEq] at h
      obtain ⟨rfl, h⟩ := h
      obtain ⟨rfl, e2⟩ := ih (by simp_all) (w' := w') (by simp_all) h
      exact ⟨rfl, e2⟩

theorem under_split {h h' i i' : Str} (hh : '_' ∉ h) (hh' : '_' ∉ h') (e : h ++ '_' :: i = h' ++ '_' :: i') : h = h' ∧ i = i' := by
  induction h generalizing h' with
  | nil =>
    cases h' with
    | nil => simpa using e
    | cons c h' =>
      simp only [List.nil_append, List.cons_append, List.cons.injEq] at e
      exact absurd (by simp [← e.1]) hh'
  | cons c h ih =>
    cases h' with
    | nil =>
      simp only [List.nil_append, List.cons_append, List.cons.injEq] at e
      exact absurd (by simp [e.1]) hh
    | cons c' h' =>
      simp only [List.cons_append, List.cons.injEq] at e
      obtain ⟨rfl, e1⟩ := e
      obtain ⟨rfl, e2⟩ := ih (by simp_all) (h' := h') (by simp_all) e1
      exact ⟨rfl, e2⟩

theorem litText_inj {l l' : Lit Str} (h : litText l = litText l') : l = l' := by
  have h1 := showsLit_litText l
  have h2 := showsLit_litText l'
  rw [← h] at h2
  clear h
  generalize litText l = t at h1 h2
  have head : "           {".toList = ' ' :: "          {".toList := by decide
  have head' : "{\\overline{".toList = '{' :: "\\overline{".toList := by decide
  have hclose : "}".toList = ['}'] := by decide
  cases h1 with
  | pos n =>
    generalize ht : "           {".toList ++ n ++ "}".toList = t at h2
    cases h2 with
    | pos n' =>
      have := List.append_cancel_right ht
      rw [List.append_cancel_left this]
    | neg => rw [head, head'] at ht; simp at ht
    | negPlain => rw [head, head'] at ht; simp at ht
    | negEmpty => rw [head] at ht; simp at ht
  | neg h i hh =>
    generalize ht : "{\\overline{".toList ++ h ++ "}".toList ++ '_' :: i ++ "}".toList = t at h2
    cases h2 with
    | pos n' => rw [head, head'] at ht; simp at ht
    | neg h' i' hh' =>
      have := List.append_cancel_right ht
      simp only [List.append_assoc] at this
      have := List.append_cancel_left this
      rw [← List.append_assoc, ← List.append_assoc, hclose] at this
      obtain ⟨e1, e2⟩ := under_split (by simp [hh]) (by simp [hh']) this
      rw [List.append_cancel_right e1, e2]
    | negPlain h' c' hh' hc' =>
      exfalso
      rw [hclose] at ht
      simp only [List.append_assoc] at ht
      have ht := List.append_cancel_left ht
      have : '_' ∈ h' ++ (['}'] ++ c' :: ['}']) := by rw [← ht]; simp
      simp [hh', Ne.symm hc'] at this
    | negEmpty =>
      exfalso
      have : '_' ∈ "{\\overline{}}".toList := by rw [← ht]; simp
      exact absurd this (by decide)
  | negPlain h c hh hc =>
    generalize ht : "{\\overline{".toList ++ h ++ "}".toList ++ c :: "}".toList = t at h2
    cases h2 with
    | pos n' => rw [head, head'] at ht; simp at ht
    | neg h' i' hh' =>
      exfalso
      rw [hclose] at ht
      simp only [List.append_assoc] at ht
      have ht := List.append_cancel_left ht
      have : '_' ∈ h ++ (['}'] ++ c :: ['}']) := by rw [ht]; simp
      simp [hh, Ne.symm hc] at this
    | negPlain h' c' hh' hc' =>
      rw [hclose] at ht
      simp only [List.append_assoc] at ht
      have ht := List.append_cancel_left ht
      have e : ∀ (x : Str) (d : Char), x ++ (['}'] ++ d :: ['}']) = x ++ ['}'] ++ [d] ++ ['}'] := by intro x d; simp
      rw [e, e] at ht
      have ht := List.append_cancel_right ht
      obtain ⟨e1, e2⟩ := List.append_inj' ht rfl
      rw [List.append_cancel_right e1, List.cons.inj e2 |>.1]
    | negEmpty =>
      exfalso
      have := congrArg List.length ht
      rw [hclose] at this
      simp only [List.length_append, List.length_cons, List.length_nil] at this
      have e1 : "{\\overline{".toList.length = 11 := by decide
      have e2 : "{\\overline{}}".toList.length = 13 := by decide
      omega
  | negEmpty =>
    generalize ht : "{\\overline{}}".toList = t at h2
    cases h2 with
    | pos n' => rw [head] at ht; simp at ht
    | neg h' i' hh' =>
      exfalso
      have : '_' ∈ "{\\overline{}}".toList := by rw [ht]; simp
      exact absurd this (by decide)
    | negPlain h' c' hh' hc' =>
      exfalso
      have := congrArg List.length ht
      rw [hclose] at this
      simp only [List.length_append, List.length_cons, List.length_nil] at this
      have e1 : "{\\overline{".toList.length = 11 := by decide
      have e2 : "{\\overline{}}".toList.length = 13 := by decide
      omega
    | negEmpty => rfl

/-- The blanks before a literal. -/
def litPre (b : Bool) : Str := if b then "           ".toList else []
/-- The literal without the blanks before it. -/
def litWord (l : Lit Str) : Str := (litText l).drop (litPre l.1).length

theorem litText_split (l : Lit Str) : litText l = litPre l.1 ++ litWord l := by
  obtain ⟨b, n⟩ := l
  unfold litWord litPre litText
  cases b with
  | true =>
    have : "           {".toList = "           ".toList ++ "{".toList := by decide
    simp only [if_true, this, List.append_assoc]
    rw [List.drop_left]
  | false => simp

theorem mem_slices {x : Char} {n : Str} (h : x ∉ n) (k : Int) : x ∉ sliceTo n k ∧ x ∉ sliceFrom n k := by
  unfold sliceTo sliceFrom
  constructor <;> split
  all_goals first
    | exact fun hx => h (List.mem_of_mem_take hx)
    | exact fun hx => h (List.mem_of_mem_drop hx)

theorem litWord_shape (l : Lit Str) : ∃ w, litWord l = '{' :: w := by
  obtain ⟨b, n⟩ := l
  unfold litWord litPre litText
  cases b with
  | true =>
    have : "           {".toList = "           ".toList ++ "{".toList := by decide
    refine ⟨n ++ "}".toList, ?_⟩
    simp only [if_true, this, List.append_assoc]
    rw [List.drop_left]
    rfl
  | false =>
    have : "{\\overline{".toList = '{' :: "\\overline{".toList := by decide
    simp only [Bool.false_eq_true, if_false, List.length_nil, List.drop_zero]
    rw [this]
    exact ⟨_, rfl⟩

theorem not_mem_litText {x : Char} {l : Lit Str} (h : x ∉ l.2) (h1 : x ∉ "           {}\\overline".toList) : x ∉ litText l := by
  have a1 : x ∉ "           {".toList := fun hx => h1 (by revert hx; simp; tauto)
  have a2 : x ∉ "}".toList := fun hx => h1 (by revert hx; simp; tauto)
  have a3 : x ∉ "{\\overline{".toList := fun hx => h1 (by revert hx; simp; tauto)
  unfold litText
  obtain ⟨b1, b2⟩ := mem_slices h (findUnderscore l.2)
  split
  · simp only [List.mem_append, a1, a2, h, or_self, not_false_eq_true]
  · simp only [List.mem_append, a2, a3, b1, b2, or_self, not_false_eq_true]

theorem litWord_true (n : Str) : litWord (true, n) = "{".toList ++ (n ++ "}".toList) := by
  have e : "           {".toList = "           ".toList ++ "{".toList := by decide
  have h : litText (true, n) = "           ".toList ++ ("{".toList ++ (n ++ "}".toList)) := by
    unfold litText; rw [if_pos rfl, e]; simp only [List.append_assoc]
  unfold litWord
  rw [h]
  exact List.drop_left

theorem litWord_blank {l : Lit Str} (h : ' ' ∉ l.2) : ' ' ∉ litWord l := by
  obtain ⟨b, n⟩ := l
  have h0 : ' ' ∉ "{".toList := by decide
  have h2 : ' ' ∉ "}".toList := by decide
  cases b with
  | true =>
    rw [litWord_true]
    intro hx
    rcases List.mem_append.1 hx with hx | hx
    · exact h0 hx
    · rcases List.mem_append.1 hx with hx | hx
      · exact h hx
      · exact h2 hx
  | false =>
    obtain ⟨b1, b2⟩ := mem_slices h (findUnderscore n)
    have h1 : ' ' ∉ "{\\overline{".toList := by decide
    unfold litWord litPre litText
    simp only [Bool.false_eq_true, if_false, List.length_nil, List.drop_zero]
    simp only [List.mem_append, h1, h2, b1, b2, or_self, not_false_eq_true]

theorem lit_split {l l' : Lit Str} (h : ' ' ∉ l.2) (h' : ' ' ∉ l'.2) {r r' : Str} (hr : Blank r) (hr' : Blank r')
    (e : litText l ++ r = litText l' ++ r') : l = l' ∧ r = r' := by
  have hb : l.1 = l'.1 := by
    rw [litText_split, litText_split l'] at e
    obtain ⟨w, hw⟩ := litWord_shape l
    obtain ⟨w', hw'⟩ := litWord_shape l'
    rw [hw, hw'] at e
    have hp : litPre true = ' ' :: "          ".toList := by decide
    have hp' : litPre false = [] := rfl
    cases h1 : l.1 <;> cases h2 : l'.1
    · rfl
    · rw [h1, h2, hp, hp'] at e; simp at e
    · rw [h1, h2, hp, hp'] at e; simp at e
    · rfl
  rw [litText_split, litText_split l', hb, List.append_assoc, List.append_assoc] at e
  obtain ⟨e1, e2⟩ := word_split (litWord_blank h) (litWord_blank h') hr hr' (List.append_cancel_left e)
  refine ⟨litText_inj ?_, e2⟩
  rw [litText_split, litText_split l', hb, e1]

/-- The literals after the first. -/
def litTail (ls : List (Lit Str)) : Str := ls.flatMap fun l => " \\lor ".toList ++ litText l

theorem litTail_blank (ls : List (Lit Str)) : Blank (litTail ls) := by
  cases ls with
  | nil => exact Or.inl rfl
  | cons l ls =>
    right
    have : " \\lor ".toList = ' ' :: "\\lor ".toList := by decide
    unfold litTail
    rw [List.flatMap_cons, this]
    exact ⟨_, rfl⟩

theorem litTail_inj {ls ls' : List (Lit Str)} (h : ∀ l ∈ ls, ' ' ∉ l.2) (h' : ∀ l ∈ ls', ' ' ∉ l.2) (e : litTail ls = litTail ls') :
    ls = ls' := by
  have hs : " \\lor ".toList = ' ' :: "\\lor ".toList := by decide
  induction ls generalizing ls' with
  | nil =>
    cases ls' with
    | nil => rfl
    | cons l ls' => unfold litTail at e; rw [List.flatMap_cons, hs] at e; simp at e
  | cons l ls ih =>
    cases ls' with
    | nil => unfold litTail at e; rw [List.flatMap_cons, hs] at e; simp at e
    | cons l' ls' =>
      have e : " \\lor ".toList ++ litText l ++ litTail ls = " \\lor ".toList ++ litText l' ++ litTail ls' := by
        unfold litTail at e ⊢; rw [List.flatMap_cons, List.flatMap_cons] at e; exact e
      rw [List.append_assoc, List.append_assoc] at e
      obtain ⟨e1, e2⟩ := lit_split (h l List.mem_cons_self) (h' l' List.mem_cons_self) (litTail_blank _) (litTail_blank _) (List.append_cancel_left e)
      rw [e1, ih (fun x hx => h x (List.mem_cons_of_mem _ hx)) (fun x hx => h' x (List.mem_cons_of_mem _ hx)) e2]

theorem joinWith_lits (l : Lit Str) (ls : List (Lit Str)) :
    joinWith " \\lor ".toList ((l :: ls).map litText) = litText l ++ litTail ls := by
  rw [List.map_cons, joinWith_cons_flatMap, List.flatMap_map]
  rfl

theorem litText_head (l : Lit Str) (r : Str) : ∃ c s, litText l ++ r = c :: s ∧ c ≠ '\\' := by
  rw [litText_split]
  obtain ⟨w, hw⟩ := litWord_shape l
  have hp : litPre true = ' ' :: "          ".toList := by decide
  have hp' : litPre false = [] := rfl
  rw [hw]
  cases l.1
  · rw [hp']; exact ⟨'{', _, rfl, by decide⟩
  · rw [hp]; exact ⟨' ', _, rfl, by decide⟩

theorem rowText_inj {full : Bool} {k k' : List (Lit Str)} (h : ∀ l ∈ k, ' ' ∉ l.2) (h' : ∀ l ∈ k', ' ' ∉ l.2)
    (e : rowText full k = rowText full k') : k = k' := by
  have hsq : "\\square".toList = '\\' :: 's' :: "quare".toList := by decide
  have hlf : "\\left( ".toList = '\\' :: 'l' :: "eft( ".toList := by decide
  have hno : ∀ (l : Lit Str) (ls : List (Lit Str)), rowText full [] ≠ rowText full (l :: ls) := by
    intro l ls e
    unfold rowText at e
    rw [if_pos rfl, if_neg (by simp)] at e
    cases full with
    | true =>
      rw [if_pos rfl, joinWith_lits] at e
      obtain ⟨c, s, hc, hne⟩ := litText_head l (litTail ls)
      rw [hc, hsq] at e
      simp only [List.cons.injEq] at e
      exact hne e.1.symm
    | false =>
      rw [if_neg (by simp), hsq, hlf] at e
      simp at e
  match k, k' with
  | [], [] => rfl
  | [], l :: ls => exact absurd e (hno l ls)
  | l :: ls, [] => exact absurd e.symm (hno l ls)
  | l :: ls, l' :: ls' =>
    have e : litText l ++ litTail ls = litText l' ++ litTail ls' := by
      unfold rowText at e
      rw [if_neg (List.cons_ne_nil _ _), if_neg (List.cons_ne_nil _ _), joinWith_lits, joinWith_lits] at e
      cases full with
      | true => exact e
      | false =>
        have e : "\\left( ".toList ++ (litText l ++ litTail ls) ++ " \\right)".toList =
          "\\left( ".toList ++ (litText l' ++ litTail ls') ++ " \\right)".toList := e
        exact List.append_cancel_left (List.append_cancel_right e)
    obtain ⟨e1, e2⟩ := lit_split (h l List.mem_cons_self) (h' l' List.mem_cons_self) (litTail_blank _) (litTail_blank _) e
    rw [e1, litTail_inj (fun x hx => h x (List.mem_cons_of_mem _ hx)) (fun x hx => h' x (List.mem_cons_of_mem _ hx)) e2]

end NDP.Cnfgen
