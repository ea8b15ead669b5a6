import Verif.Cnfgen.LatexProps
/-
  C88, second part: the LaTeX text determines the clauses; what it does to negative literals; names that are not strings.
-/
namespace NDP.Cnfgen
open NDP

/-! ### The lines of the text -/

/-- The row without the line end. -/
def stripEnd (r : Str) : Str :=
  match r.reverse with
  | '\\' :: '\\' :: ' ' :: x => x.reverse
  | _ => r

/-- The row a line shows, if it shows one. -/
def rowOf (line : Str) : Option Str := if line.head? = some '&' then some (stripEnd (line.drop 8)) else none

/-- The last character is no backslash. -/
def GoodRow (r : Str) : Prop := ∃ s c, r = s ++ [c] ∧ c ≠ '\\' ∧ '\n' ∉ r

theorem stripEnd_plain {r : Str} (h : GoodRow r) : stripEnd r = r := by
  obtain ⟨s, c, rfl, hc, -⟩ := h
  unfold stripEnd
  rw [List.reverse_append]
  simp only [List.reverse_cons, List.reverse_nil, List.nil_append, List.singleton_append]
  split
  · rename_i x e
    simp only [List.cons.injEq] at e
    exact absurd e.1 hc
  · rfl

theorem stripEnd_end (r : Str) : stripEnd (r ++ " \\\\".toList) = r := by
  have e : (r ++ " \\\\".toList).reverse = '\\' :: '\\' :: ' ' :: r.reverse := by
    rw [List.reverse_append]; rfl
  unfold stripEnd
  rw [e]
  simp

/-- What comes before the rows after the first. -/
def laterStart (full : Bool) : Str := if full then "&       ".toList else "& \\land ".toList

theorem rowSep_eq (full : Bool) : rowSep full = " \\\\".toList ++ '\n' :: laterStart full := by cases full <;> decide
theorem laterStart_eq (full : Bool) : ∃ s, laterStart full = '&' :: s ∧ s.length = 7 ∧ '\n' ∉ s := by
  cases full
  · exact ⟨" \\land ".toList, by decide, by decide, by decide⟩
  · exact ⟨"       ".toList, by decide, by decide, by decide⟩

/-- The lines of a page whose first line begins with `pre`. -/
def pageLines (full : Bool) (pre : Str) : Str → List Str → List Str
  | r, [] => [pre ++ r]
  | r, s :: rs => (pre ++ (r ++ " \\\\".toList)) :: pageLines full (laterStart full) s rs

theorem pageLines_text (full : Bool) (pre r : Str) (rs : List Str) :
    (pageLines full pre r rs).flatMap ('\n' :: ·) = '\n' :: pre ++ r ++ rs.flatMap (rowSep full ++ ·) := by
  induction rs generalizing pre r with
  | nil => simp [pageLines]
  | cons s rs ih =>
    rw [pageLines, List.flatMap_cons, ih, List.flatMap_cons, rowSep_eq]
    simp only [List.append_assoc, List.cons_append]

theorem rowOf_pre {s r : Str} (h : s.length = 7) : rowOf ('&' :: s ++ r) = some (stripEnd r) := by
  unfold rowOf
  rw [if_pos (show ('&' :: s ++ r).head? = some '&' from rfl)]
  have : ('&' :: s ++ r).drop 8 = r := by
    rw [show (8 : Nat) = ('&' :: s).length by simp [h]]
    exact List.drop_left
  rw [this]

theorem pageLines_rows (full : Bool) {s : Str} (hs : s.length = 7) {r : Str} {rs : List Str} (h : ∀ x ∈ r :: rs, GoodRow x) :
    (pageLines full ('&' :: s) r rs).filterMap rowOf = r :: rs := by
  induction rs generalizing s r with
  | nil => rw [pageLines, List.filterMap_cons, rowOf_pre hs, stripEnd_plain (h r (by simp))]; rfl
  | cons x rs ih =>
    obtain ⟨s', e', hs', -⟩ := laterStart_eq full
    rw [pageLines, List.filterMap_cons, rowOf_pre hs, stripEnd_end, e', ih hs' fun y hy => h y (List.mem_cons_of_mem _ hy)]

theorem pageLines_nl (full : Bool) {s : Str} (hs : '\n' ∉ s) {r : Str} {rs : List Str} (h : ∀ x ∈ r :: rs, GoodRow x) :
    ∀ w ∈ pageLines full ('&' :: s) r rs, '\n' ∉ w := by
  have he : '\n' ∉ " \\\\".toList := by decide
  induction rs generalizing s r with
  | nil =>
    intro w hw
    obtain ⟨_, _, _, _, h4⟩ := h r (by simp)
    rw [pageLines, List.mem_singleton] at hw
    subst hw
    simp only [List.cons_append, List.mem_cons, List.mem_append, hs, h4, or_self, or_false]
    decide
  | cons x rs ih =>
    obtain ⟨s', e', hs', hn'⟩ := laterStart_eq full
    intro w hw
    rw [pageLines, e'] at hw
    rcases List.mem_cons.1 hw with rfl | hw
    · obtain ⟨_, _, _, _, h4⟩ := h r (by simp)
      simp only [List.cons_append, List.mem_cons, List.mem_append, hs, h4, he, or_self, or_false]
      decide
    · exact ih hn' (fun y hy => h y (List.mem_cons_of_mem _ hy)) w hw

/-- The lines of the pages. -/
def linesOf (full : Bool) : List (List Str) → List Str
  | [] => []
  | [] :: ps => linesOf full ps
  | (r :: rs) :: ps => pageLines full "&       ".toList r rs ++
      (if ps = [] then [] else "\\end{align}\\pagebreak".toList :: "\\begin{align}".toList :: linesOf full ps)

theorem first_eq : "&       ".toList = '&' :: "       ".toList := by decide

theorem linesOf_text (full : Bool) {ps : List (List Str)} (hps : ps ≠ []) (hne : ∀ p ∈ ps, p ≠ []) :
    (linesOf full ps).flatMap ('\n' :: ·) =
      joinWith "\n\\end{align}\\pagebreak\n\\begin{align}".toList (ps.map (pageText full)) := by
  have hsep : "\n\\end{align}\\pagebreak\n\\begin{align}".toList =
      '\n' :: "\\end{align}\\pagebreak".toList ++ '\n' :: "\\begin{align}".toList := by decide
  have hf : "\n&       ".toList = '\n' :: "&       ".toList := by decide
  induction ps with
  | nil => exact absurd rfl hps
  | cons p ps ih =>
    obtain ⟨r, rs, rfl⟩ := List.exists_cons_of_ne_nil (hne p (by simp))
    have hp : (pageLines full "&       ".toList r rs).flatMap ('\n' :: ·) = pageText full (r :: rs) := by
      rw [pageLines_text, pageText_cons, rowStart_true, hf]
    rw [linesOf]
    by_cases e : ps = []
    · subst e
      rw [if_pos rfl, List.append_nil, hp]
      rfl
    · rw [if_neg e, List.flatMap_append, hp, List.flatMap_cons, List.flatMap_cons, ih e fun p hp => hne p (List.mem_cons_of_mem _ hp)]
      obtain ⟨q, qs, rfl⟩ := List.exists_cons_of_ne_nil e
      rw [List.map_cons, List.map_cons]
      show _ = pageText full (r :: rs) ++ "\n\\end{align}\\pagebreak\n\\begin{align}".toList ++ joinWith _ (pageText full q :: List.map (pageText full) qs)
      generalize joinWith _ (pageText full q :: List.map (pageText full) qs) = z
      rw [hsep]
      simp only [List.append_assoc, List.cons_append]

theorem linesOf_rows (full : Bool) {ps : List (List Str)} (h : ∀ p ∈ ps, ∀ x ∈ p, GoodRow x) :
    (linesOf full ps).filterMap rowOf = ps.flatten := by
  have h1 : rowOf "\\end{align}\\pagebreak".toList = none := by decide
  have h2 : rowOf "\\begin{align}".toList = none := by decide
  induction ps with
  | nil => rfl
  | cons p ps ih =>
    have ih := ih fun q hq => h q (List.mem_cons_of_mem _ hq)
    cases p with
    | nil => rw [linesOf, ih]; rfl
    | cons r rs =>
      rw [linesOf, first_eq, List.filterMap_append, pageLines_rows full (by decide) (h _ (by simp)), List.flatten_cons]
      by_cases e : ps = []
      · subst e; rw [if_pos rfl]; rfl
      · rw [if_neg e, List.filterMap_cons, h1, List.filterMap_cons, h2, ih]

theorem linesOf_nl (full : Bool) {ps : List (List Str)} (h : ∀ p ∈ ps, ∀ x ∈ p, GoodRow x) : ∀ w ∈ linesOf full ps, '\n' ∉ w := by
  have h1 : '\n' ∉ "\\end{align}\\pagebreak".toList := by decide
  have h2 : '\n' ∉ "\\begin{align}".toList := by decide
  induction ps with
  | nil => intro w hw; simp [linesOf] at hw
  | cons p ps ih =>
    have ih := ih fun q hq => h q (List.mem_cons_of_mem _ hq)
    cases p with
    | nil => rw [linesOf]; exact ih
    | cons r rs =>
      intro w hw
      rw [linesOf, first_eq] at hw
      rcases List.mem_append.1 hw with hw | hw
      · exact pageLines_nl full (by decide) (h _ (by simp)) w hw
      · split at hw
        · cases hw
        · rcases List.mem_cons.1 hw with rfl | hw
          · exact h1
          · rcases List.mem_cons.1 hw with rfl | hw
            · exact h2
            · exact ih w hw

theorem splitOn_lines (a : Str) (ls : List Str) (ha : '\n' ∉ a) (h : ∀ l ∈ ls, '\n' ∉ l) :
    splitOn '\n' (a ++ ls.flatMap ('\n' :: ·)) = a :: ls := by
  induction ls generalizing a with
  | nil => rw [List.flatMap_nil, List.append_nil]; exact splitOn_no_sep '\n' a ha
  | cons l ls ih =>
    rw [List.flatMap_cons, List.cons_append, splitOn_append_sep '\n' a _ ha, ih l (h l (by simp)) fun x hx => h x (List.mem_cons_of_mem _ hx)]

/-! ### The rows are good -/

theorem litText_last (l : Lit Str) : ∃ s, litText l = s ++ ['}'] := by
  unfold litText
  split
  · exact ⟨_, rfl⟩
  · exact ⟨_, rfl⟩

theorem litTail_last (l : Lit Str) (ls : List (Lit Str)) : ∃ s, litText l ++ litTail ls = s ++ ['}'] := by
  induction ls generalizing l with
  | nil =>
    obtain ⟨s, h⟩ := litText_last l
    exact ⟨s, by rw [h]; unfold litTail; simp⟩
  | cons m ls ih =>
    obtain ⟨s, h⟩ := ih m
    refine ⟨litText l ++ (" \\lor ".toList ++ s), ?_⟩
    have : litTail (m :: ls) = " \\lor ".toList ++ (litText m ++ litTail ls) := by
      unfold litTail; rw [List.flatMap_cons, List.append_assoc]
    rw [this, h]
    simp only [List.append_assoc]

theorem litTail_nl {ls : List (Lit Str)} (h : ∀ l ∈ ls, '\n' ∉ l.2) : '\n' ∉ litTail ls := by
  have h1 : '\n' ∉ " \\lor ".toList := by decide
  unfold litTail
  intro hx
  obtain ⟨l, hl, hx⟩ := List.mem_flatMap.1 hx
  rcases List.mem_append.1 hx with hx | hx
  · exact h1 hx
  · exact not_mem_litText (h l hl) (by decide) hx

theorem rowText_good {full : Bool} {k : List (Lit Str)} (h : ∀ l ∈ k, '\n' ∉ l.2) : GoodRow (rowText full k) := by
  cases k with
  | nil => cases full <;> exact ⟨"\\squar".toList, 'e', by decide, by decide, by decide⟩
  | cons l ls =>
    have hn : '\n' ∉ litText l ++ litTail ls := by
      intro hx
      rcases List.mem_append.1 hx with hx | hx
      · exact not_mem_litText (h l (by simp)) (by decide) hx
      · exact litTail_nl (fun x hx => h x (List.mem_cons_of_mem _ hx)) hx
    unfold rowText
    rw [if_neg (List.cons_ne_nil _ _), joinWith_lits]
    cases full with
    | true =>
      obtain ⟨s, hs⟩ := litTail_last l ls
      exact ⟨s, '}', hs, by decide, hn⟩
    | false =>
      have h1 : '\n' ∉ "\\left( ".toList := by decide
      have h2 : '\n' ∉ " \\right)".toList := by decide
      have e : " \\right)".toList = " \\right".toList ++ [')'] := by decide
      refine ⟨"\\left( ".toList ++ (litText l ++ litTail ls) ++ " \\right".toList, ')', ?_, by decide, ?_⟩
      · rw [List.append_assoc _ _ [')'], ← e]; rfl
      · show '\n' ∉ "\\left( ".toList ++ (litText l ++ litTail ls) ++ " \\right)".toList
        intro hx
        rcases List.mem_append.1 hx with hx | hx
        · rcases List.mem_append.1 hx with hx | hx
          · exact h1 hx
          · exact hn hx
        · exact h2 hx

theorem rows_eq {full : Bool} {cs : List (List (Lit Str))} {rows : List Str} (h : List.Forall₂ (ShowsRow full) cs rows) :
    rows = cs.map (rowText full) := by
  induction h with
  | nil => rfl
  | cons h0 _ ih => rw [List.map_cons, ih, h0.eq]

/-- Reading the text. -/
theorem ShowsClauses.read {full : Bool} {cs : List (List (Lit Str))} {t : Str} (h : ShowsClauses full cs t) (hp : PlainNames cs) :
    (splitOn '\n' t).filterMap rowOf = cs.map (rowText full) := by
  cases h with
  | none => cases full <;> decide
  | pages hc hr hflat hne hcut h40 =>
    rename_i rows pages
    have hrows := rows_eq hr
    have hgood : ∀ p ∈ pages, ∀ x ∈ p, GoodRow x := by
      intro p hp' x hx
      have : x ∈ rows := by rw [← hflat]; exact List.mem_flatten.2 ⟨p, hp', hx⟩
      rw [hrows] at this
      obtain ⟨k, hk, rfl⟩ := List.mem_map.1 this
      exact rowText_good fun l hl => (hp k hk l hl).2
    have hpne : pages ≠ [] := by
      rintro rfl
      rw [hrows] at hflat
      exact hc (List.map_eq_nil_iff.1 hflat.symm)
    have he : "\n\\end{align}".toList = ["\\end{align}".toList].flatMap ('\n' :: ·) := by decide
    have h1 : '\n' ∉ "\\begin{align}".toList := by decide
    have h2 : '\n' ∉ "\\end{align}".toList := by decide
    have h3 : rowOf "\\begin{align}".toList = Option.none := by decide
    have h4 : rowOf "\\end{align}".toList = Option.none := by decide
    rw [← linesOf_text full hpne hne, he, List.append_assoc, ← List.flatMap_append, splitOn_lines _ _ h1]
    · rw [List.filterMap_cons, h3, List.filterMap_append, linesOf_rows full hgood, List.filterMap_cons, h4, hflat, hrows]
      simp
    · intro l hl
      rcases List.mem_append.1 hl with hl | hl
      · exact linesOf_nl full hgood l hl
      · rw [List.mem_singleton] at hl; subst hl; exact h2

theorem map_rowText_inj {full : Bool} {cs cs' : List (List (Lit Str))} (hp : PlainNames cs) (hp' : PlainNames cs')
    (h : cs.map (rowText full) = cs'.map (rowText full)) : cs = cs' := by
  induction cs generalizing cs' with
  | nil => cases cs' with
    | nil => rfl
    | cons => simp at h
  | cons k cs ih =>
    cases cs' with
    | nil => simp at h
    | cons k' cs' =>
      simp only [List.map_cons, List.cons.injEq] at h
      rw [rowText_inj (fun l hl => (hp k (by simp) l hl).1) (fun l hl => (hp' k' (by simp) l hl).1) h.1,
        ih (fun x hx => hp x (List.mem_cons_of_mem _ hx)) (fun x hx => hp' x (List.mem_cons_of_mem _ hx)) h.2]

/-- **C88, nothing is lost.** Two lists of clauses, over names without blanks and line breaks, that are shown by the same
text are the same list. -/
theorem C88_determined {full : Bool} {cs cs' : List (List (Lit Str))} {t : Str} (h : ShowsClauses full cs t)
    (h' : ShowsClauses full cs' t) (hp : PlainNames cs) (hp' : PlainNames cs') : cs = cs' := by
  have e1 := h.read hp
  have e2 := h'.read hp'
  exact map_rowText_inj hp hp' (e1.symm.trans e2)

theorem nl_cut {a a' b b' : Str} (h : '\n' ∉ a) (h' : '\n' ∉ a') (e : a ++ '\n' :: b = a' ++ '\n' :: b') : b = b' := by
  induction a generalizing a' with
  | nil =>
    cases a' with
    | nil => simpa using e
    | cons c a' =>
      simp only [List.nil_append, List.cons_append, List.cons.injEq] at e
      exact absurd (e.1 ▸ List.mem_cons_self) h'
  | cons c a ih =>
    cases a' with
    | nil =>
      simp only [List.nil_append, List.cons_append, List.cons.injEq] at e
      exact absurd (e.1 ▸ List.mem_cons_self) h
    | cons c' a' =>
      simp only [List.cons_append, List.cons.injEq] at e
      exact ih (fun hx => h (List.mem_cons_of_mem _ hx)) (a' := a') (fun hx => h' (List.mem_cons_of_mem _ hx)) e.2

theorem countLine_cut (v c : Nat) : ∃ a, countLine v c = a ++ ['\n'] ∧ '\n' ∉ a := by
  have h1 : '\n' ∉ "\\noindent\\textbf{CNF with ".toList := by decide
  have h2 : '\n' ∉ " variables and and ".toList := by decide
  have h3 : '\n' ∉ " clauses:}".toList := by decide
  have hv : '\n' ∉ natStr v := not_mem_natStr (by decide)
  have hc : '\n' ∉ natStr c := not_mem_natStr (by decide)
  have e : " clauses:}\n".toList = " clauses:}".toList ++ ['\n'] := by decide
  refine ⟨"\\noindent\\textbf{CNF with ".toList ++ natStr v ++ " variables and and ".toList ++ natStr c ++ " clauses:}".toList, ?_, ?_⟩
  · unfold countLine; rw [e]; simp only [List.append_assoc]
  · intro hx
    rcases List.mem_append.1 hx with hx | hx
    · rcases List.mem_append.1 hx with hx | hx
      · rcases List.mem_append.1 hx with hx | hx
        · rcases List.mem_append.1 hx with hx | hx
          · exact h1 hx
          · exact hv hx
        · exact h2 hx
      · exact hc hx
    · exact h3 hx

/-- **C88, for formulas.** Two formulas with the same header for which `latex` gives the same text have the same clauses, in
the same order with the same literals. -/
theorem C88_same_text (F G : CNF Str) (hF : F.coherent = true) (hG : G.coherent = true) {ks ms : List (List (Lit Str))}
    (hk : F.clauses.mapM F.uncompress = pure ks) (hm : G.clauses.mapM G.uncompress = pure ms) (hp : PlainNames ks) (hp' : PlainNames ms)
    (exportHeader : Bool) (header : Str) (extra : Option Str) (full : Bool)
    (h : latexText id some exportHeader header extra full F = latexText id some exportHeader header extra full G) : ks = ms := by
  obtain ⟨t, ht, e⟩ := C88_latex F hF hk exportHeader header extra full
  obtain ⟨t', ht', e'⟩ := C88_latex G hG hm exportHeader header extra full
  rw [e, e'] at h
  have h := List.append_cancel_left (by simpa only [List.append_assoc] using (M.pure_inj _ _).1 h)
  cases full with
  | false =>
    simp only [Bool.false_eq_true, if_false, List.nil_append, List.append_nil] at h
    subst h
    exact C88_determined ht ht' hp hp'
  | true =>
    simp only [if_true] at h
    obtain ⟨a, ea, ha⟩ := countLine_cut F.vars.length ks.length
    obtain ⟨a', ea', ha'⟩ := countLine_cut G.vars.length ms.length
    rw [ea, ea', List.append_assoc, List.append_assoc, List.singleton_append, List.singleton_append] at h
    have := List.append_cancel_right (nl_cut ha ha' h)
    subst this
    exact C88_determined ht ht' hp hp'

/-! ### What comes before the formula -/

/-- `t` with each underscore escaped. -/
inductive Escaped : Str → Str → Prop
  | nil : Escaped [] []
  | under {s t : Str} (h : Escaped s t) : Escaped ('_' :: s) ('\\' :: '_' :: t)
  | other {c : Char} {s t : Str} (hc : c ≠ '_') (h : Escaped s t) : Escaped (c :: s) (c :: t)

theorem escaped_escapeUnderscore (s : Str) : Escaped s (escapeUnderscore s) := by
  induction s with
  | nil => exact Escaped.nil
  | cons c s ih =>
    unfold escapeUnderscore at ih ⊢
    rw [List.flatMap_cons]
    by_cases h : c = '_'
    · subst h; rw [if_pos rfl]; exact Escaped.under ih
    · rw [if_neg h]; exact Escaped.other h ih

/-- **C88, before the formula.** The header has the lines `l :: ls`. If asked for, each of them stands in the text as a comment.
A full document has the first line as title, with the underscores escaped, the whole header, and the extra text. -/
theorem C88_start (l : Str) (ls : List Str) (h : ∀ x ∈ l :: ls, '\n' ∉ x) (extra : Option Str) :
    latexStart false ((l :: ls).flatMap fun x => x ++ ['\n']) extra false = [] ∧
    (∀ full, latexStart true ((l :: ls).flatMap fun x => x ++ ['\n']) extra full =
      ((l :: ls).flatMap fun x => rstrip ("% ".toList ++ x) ++ ['\n']) ++ latexStart false ((l :: ls).flatMap fun x => x ++ ['\n']) extra full) ∧
    ∃ title, Escaped l title ∧ latexStart false ((l :: ls).flatMap fun x => x ++ ['\n']) extra true =
      ("%\n\\documentclass[10pt,a4paper]{article}\n\\usepackage[margin=1in]{geometry}\n\\usepackage{amsmath}\n\\usepackage{listings}\n" ++
        "\\begin{document}\n").toList ++ "\\title{".toList ++ title ++ "}\n".toList ++ "\\author{CNFgen formula generator}\n".toList ++ "\\maketitle\n".toList ++
      "\\noindent\\textbf{Formula header:}\n".toList ++ "\\begin{lstlisting}[breaklines]\n".toList ++
      ((l :: ls).flatMap fun x => x ++ ['\n']) ++ "\\end{lstlisting}\n".toList ++ "\\bigskip\n".toList ++ (match extra with | some e => e | none => []) := by
  have hs := splitOn_flat (l :: ls) h
  refine ⟨rfl, ?_, escapeUnderscore l, escaped_escapeUnderscore l, ?_⟩
  · intro full
    unfold latexStart
    rw [if_pos rfl, if_neg (show ¬ (false = true) by simp), hs, List.nil_append]
    rfl
  · unfold latexStart
    have hd : (splitOn '\n' ((l :: ls).flatMap fun x => x ++ ['\n'])).headD [] = l := by
      cases e : splitOn '\n' ((l :: ls).flatMap fun x => x ++ ['\n']) with
      | nil => exact absurd e (splitOn_ne_nil _ _)
      | cons a as =>
        rw [e] at hs
        cases as with
        | nil => simp at hs
        | cons b bs => simp only [List.dropLast_cons₂, List.cons.injEq] at hs; simp [hs.1]
    unfold latexPreamble
    rw [if_neg (show ¬ (false = true) by simp), if_pos rfl, hd, String.toList_append, List.nil_append]
    cases extra <;> rfl

/-! ### What goes wrong -/

/-- **C88, the missing bar.** The literal "not `n`", for a name without an underscore: the last character of the name
stands after the bar, not under it.  With a name of one character nothing at all is under the bar. -/
theorem C88_bar_misses_last (h : Str) (c : Char) (hh : '_' ∉ h) (hc : c ≠ '_') (t : Str) :
    ShowsLit (false, h ++ [c]) t ↔ t = "{\\overline{".toList ++ h ++ "}".toList ++ c :: "}".toList := by
  constructor
  · intro ht
    rw [ht.eq, ← (ShowsLit.negPlain h c hh hc).eq]
  · rintro rfl
    exact ShowsLit.negPlain h c hh hc

/-- **C88, numbered variables.** A formula whose variables are numbers (as `dimacs2cnf` makes them) with a negative literal in some clause: `latex` ends with an AttributeError. -/
theorem C88_numbers (F : CNF Nat) {c : List Int} (hc : c ∈ F.clauses) {l : Int} (hl : l ∈ c) (hneg : l < 0) (exportHeader : Bool)
    (header : Str) (extra : Option Str) (full : Bool) (hF : F.coherent = true) :
    latexText natStr (fun _ => none) exportHeader header extra full F = raise .attributeError := by
  have key : ∀ l : Int, l ≠ 0 → l.natAbs ≤ F.vars.length →
      mapLiteral natStr (fun _ => none) F l = raise .attributeError ∨ (0 ≤ l ∧ ∃ s, mapLiteral natStr (fun _ => none) F l = pure s) := by
    intro l h0 h1
    unfold mapLiteral
    rw [if_neg h0]
    have : F.vars[l.natAbs - 1]? = some (F.vars[l.natAbs - 1]'(by omega)) := List.getElem?_eq_getElem _
    rw [this]
    by_cases hp : l > 0
    · right
      exact ⟨by omega, _, by show (if l > 0 then _ else _) = _; rw [if_pos hp]⟩
    · left
      show (if l > 0 then _ else _) = _
      rw [if_neg hp]
      rfl
  have hco := coherent_lits hF
  have row : ∀ c ∈ F.clauses, c.mapM (mapLiteral natStr (fun _ => none) F) = raise .attributeError ∨
      ((∀ l ∈ c, 0 ≤ l) ∧ ∃ ls, c.mapM (mapLiteral natStr (fun _ => none) F) = pure ls) := by
    intro c hc
    replace hc := hco c hc
    induction c with
    | nil => exact Or.inr ⟨by simp, [], rfl⟩
    | cons l c ih =>
      rw [List.mapM_cons]
      obtain ⟨h0, h1⟩ := hc l (by simp)
      rcases key l h0 h1 with e | ⟨hp, s, e⟩
      · left; rw [e, M.raise_bind]
      · rw [e, M.pure_bind]
        rcases ih fun x hx => hc x (List.mem_cons_of_mem _ hx) with e | ⟨hp', ls, e⟩
        · left; rw [e, M.raise_bind]
        · right
          refine ⟨?_, s :: ls, by rw [e, M.pure_bind]⟩
          intro x hx
          rcases List.mem_cons.1 hx with rfl | hx
          · exact hp
          · exact hp' x hx
  have hw : ∀ c ∈ F.clauses, ∀ first, writeClause natStr (fun _ => none) F c first full = raise .attributeError ∨
      ((∀ l ∈ c, 0 ≤ l) ∧ ∃ s, writeClause natStr (fun _ => none) F c first full = pure s) := by
    intro c hc first
    unfold writeClause
    by_cases e : c.length = 0
    · right
      have : c = [] := List.eq_nil_of_length_eq_zero e
      subst this
      exact ⟨by simp, _, rfl⟩
    · rw [if_neg e]
      rcases row c hc with e | ⟨hp, ls, e⟩
      · left; rw [e, M.raise_bind]
      · right
        refine ⟨hp, ?_⟩
        rw [e, M.pure_bind]
        cases full
        · exact ⟨_, rfl⟩
        · exact ⟨_, rfl⟩
  have hn : ∀ p : List Int × Nat, p.1 ∈ F.clauses → writeNth natStr (fun _ => none) F full p = raise .attributeError ∨
      ((∀ l ∈ p.1, 0 ≤ l) ∧ ∃ s, writeNth natStr (fun _ => none) F full p = pure s) := by
    intro p hp
    unfold writeNth
    split
    · rcases hw p.1 hp true with e | ⟨h1, s, e⟩
      · left; rw [e, M.raise_bind]
      · right; exact ⟨h1, _, by rw [e, M.pure_bind]⟩
    · exact hw p.1 hp _
  have hall : ∀ (ps : List (List Int × Nat)), (∀ p ∈ ps, p.1 ∈ F.clauses) →
      ps.mapM (writeNth natStr (fun _ => none) F full) = raise .attributeError ∨
      ((∀ p ∈ ps, ∀ l ∈ p.1, 0 ≤ l) ∧ ∃ ts, ps.mapM (writeNth natStr (fun _ => none) F full) = pure ts) := by
    intro ps
    induction ps with
    | nil => exact fun _ => Or.inr ⟨by simp, [], rfl⟩
    | cons p ps ih =>
      intro hps
      rw [List.mapM_cons]
      rcases hn p (hps p (by simp)) with e | ⟨h1, s, e⟩
      · left; rw [e, M.raise_bind]
      · rw [e, M.pure_bind]
        rcases ih fun q hq => hps q (List.mem_cons_of_mem _ hq) with e | ⟨h2, ts, e⟩
        · left; rw [e, M.raise_bind]
        · right
          refine ⟨?_, s :: ts, by rw [e, M.pure_bind]⟩
          intro q hq
          rcases List.mem_cons.1 hq with rfl | hq
          · exact h1
          · exact h2 q hq
  have hz : ∀ p ∈ F.clauses.zipIdx, p.1 ∈ F.clauses := by
    intro p hp
    obtain ⟨x, i⟩ := p
    have := List.mem_zipIdx' hp
    simp only at this ⊢
    rw [this.2]
    exact List.getElem_mem _
  have hrows : latexRows natStr (fun _ => none) full F = raise .attributeError := by
    unfold latexRows
    rw [if_neg (by intro e; rw [List.length_eq_zero_iff.1 e] at hc; cases hc)]
    rcases hall _ hz with e | ⟨h1, -⟩
    · rw [e, M.raise_bind]
    · exfalso
      obtain ⟨i, hi, rfl⟩ := List.getElem_of_mem hc
      have : (F.clauses[i], i) ∈ F.clauses.zipIdx := by
        rw [List.mem_zipIdx_iff_getElem?]
        simp
      have := h1 _ this l hl
      omega
  unfold latexText
  rw [if_neg (by rw [hF]; simp), hrows, M.raise_bind]

/-- Two formulas the theorems above speak of. -/
def exLatex : CNF Str := { vars := ["x_1".toList, "y".toList], clauses := [[1, -2], []] }
def exLatexNum : CNF Nat := { vars := [1, 2], clauses := [[1], [-2]] }

example : exLatex.coherent = true ∧
    exLatex.clauses.mapM exLatex.uncompress = pure [[(true, "x_1".toList), (false, "y".toList)], []] ∧
    PlainNames [[(true, "x_1".toList), (false, "y".toList)], []] := by
  refine ⟨by decide, rfl, ?_⟩
  intro k hk l hl
  simp only [List.mem_cons, List.not_mem_nil, or_false] at hk
  rcases hk with rfl | rfl
  · simp only [List.mem_cons, List.not_mem_nil, or_false] at hl
    rcases hl with rfl | rfl <;> decide
  · cases hl

/-- The text of the first one: `y` is shown without a bar over it. -/
example : latexText id some false [] none false exLatex = pure
    ("\\begin{align}\n&       \\left(            {x_1} \\lor {\\overline{}y} \\right) \\\\\n& \\land \\square\n\\end{align}").toList := by
  rfl

example : latexText natStr (fun _ => none) false [] none false exLatexNum = raise .attributeError :=
  C88_numbers exLatexNum (c := [-2]) (by decide) (l := -2) (by decide) (by decide) false [] none false (by decide)

end NDP.Cnfgen
