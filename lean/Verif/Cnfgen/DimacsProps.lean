import Verif.Cnfgen.Dimacs
import Verif.Cnfgen.TransformCore
import Verif.Proofs.GenText
/-
  C57: DIMACS files written by the formula generator, read back by it and by the solver.
-/
namespace NDP.Cnfgen
open NDP NDP.Gen NDP.Spec
variable {V : Type} [DecidableEq V]

/-! ### lines -/

/-- The text of some lines, with line breaks between them. -/
theorem lines_join (hs cls : List Str) (spec : Str) :
    (hs.flatMap fun l => l ++ ['\n']) ++ spec ++ (cls.flatMap fun l => '\n' :: l) = joinWith ['\n'] (hs ++ spec :: cls) := by
  induction hs with
  | nil =>
    simp only [List.flatMap_nil, List.nil_append]
    induction cls generalizing spec with
    | nil => simp [joinWith]
    | cons c cls ih =>
      rw [List.flatMap_cons]
      have := ih c
      rw [joinWith, ← this]
      · simp
      · simp
  | cons h hs ih =>
    cases hs with
    | nil => simp only [List.flatMap_cons, List.append_assoc, List.flatMap_nil, List.nil_append] at ih ⊢
             rw [ih]; simp [joinWith]
    | cons h' hs =>
      rw [List.flatMap_cons]
      simp only [List.append_assoc] at ih ⊢
      rw [ih]
      simp [joinWith]

theorem rstrip_cons (line : Str) : commentLine line = 'c' :: (if rstrip line = [] then [] else ' ' :: rstrip line) := by
  unfold commentLine rstrip
  rw [List.reverse_cons, List.reverse_cons, List.append_assoc, List.dropWhile_append]
  by_cases h : line.reverse.dropWhile isPySpace = []
  · rw [h]
    rfl
  · rw [if_neg (by simpa using h), if_neg (by simpa using h)]
    simp

theorem rstrip_rstrip (s : Str) : rstrip (rstrip s) = rstrip s := by
  unfold rstrip
  rw [List.reverse_reverse]
  congr 1
  induction s.reverse with
  | nil => rfl
  | cons c l ih =>
    by_cases h : isPySpace c = true
    · rw [List.dropWhile_cons_of_pos h, ih]
    · rw [List.dropWhile_cons_of_neg h, List.dropWhile_cons_of_neg h]

theorem mem_rstrip {s : Str} {c : Char} (h : c ∈ rstrip s) : c ∈ s := by
  unfold rstrip at h
  exact List.mem_reverse.1 ((List.dropWhile_sublist _).subset (List.mem_reverse.1 h))

theorem commentLine_rstrip (line : Str) : commentLine (rstrip line) = commentLine line := by
  rw [rstrip_cons, rstrip_cons, rstrip_rstrip]

theorem nl_commentLine {line : Str} (h : '\n' ∉ line) : '\n' ∉ commentLine line := by
  intro hc
  have := mem_rstrip hc
  simp at this
  exact h this

theorem dimLine_comment (st : DimSt) (line : Str) :
    dimLine st (commentLine line ++ ['\n']) = pure { st with header := st.header ++ (rstrip line ++ ['\n']) } := by
  rw [rstrip_cons]
  by_cases h : rstrip line = []
  · rw [if_pos h, h]; rfl
  · rw [if_neg h]
    show dimLine st ('c' :: ' ' :: (rstrip line ++ ['\n'])) = _
    simp only [dimLine]
    rw [if_neg (by simp)]

theorem dimLine_comments (ls : List Str) (st : DimSt) :
    (ls.map fun l => commentLine l ++ ['\n']).foldlM dimLine st =
      pure { st with header := st.header ++ ls.flatMap fun l => rstrip l ++ ['\n'] } := by
  induction ls generalizing st with
  | nil => simp
  | cons l ls ih =>
    rw [List.map_cons, List.foldlM_cons, dimLine_comment, M.pure_bind, ih]
    simp

/-- The line `p cnf n m`. -/
def specLine (n m : Nat) : Str := "p cnf ".toList ++ natStr n ++ " ".toList ++ natStr m

theorem specLine_eq (n m : Nat) : specLine n m = "p cnf ".toList ++ natStr n ++ " ".toList ++ natStr m := rfl

theorem specLine_join (n m : Nat) : specLine n m = joinWith [' '] ["p".toList, "cnf".toList, natStr n, natStr m] := by
  rw [specLine_eq]
  simp [joinWith]

attribute [irreducible] specLine

/-- The line of a clause. -/
def clauseLine (c : List Int) : Str := joinWith [' '] ((c ++ [0]).map intStr)

theorem specLine_words (n m : Nat) : splitWS (specLine n m) = ["p".toList, "cnf".toList, natStr n, natStr m] := by
  rw [specLine_join]
  apply splitWS_joinWith
  intro w hw
  simp only [List.mem_cons, List.not_mem_nil, or_false] at hw
  rcases hw with rfl | rfl | rfl | rfl
  · decide
  · decide
  · exact ⟨natStr_ne_nil n, natStr_no_space n⟩
  · exact ⟨natStr_ne_nil m, natStr_no_space m⟩

theorem nl_specLine (n m : Nat) : '\n' ∉ specLine n m := by
  rw [specLine_eq]
  exact nl_append (nl_append (nl_append (by decide) (nl_natStr n)) (by decide)) (nl_natStr m)

theorem clauseLine_words (c : List Int) : splitWS (clauseLine c) = (c ++ [0]).map intStr := by
  apply splitWS_joinWith
  intro w hw
  obtain ⟨i, _, rfl⟩ := List.mem_map.1 hw
  exact ⟨intStr_ne_nil i, intStr_no_space i⟩

theorem parseInt_natStr' (n : Nat) : parseInt (natStr n) = some (n : Int) := by
  have h := parseInt_intStr (n : Int)
  unfold intStr at h
  rw [if_neg (by omega)] at h
  exact h

theorem dimLine_spec (st : DimSt) (h : st.n < 0) (n m : Nat) :
    dimLine st (specLine n m ++ ['\n']) = pure { st with n := n, m := m } := by
  have e : splitWS (specLine n m ++ ['\n']) = ["p".toList, "cnf".toList, natStr n, natStr m] :=
    (splitWS_append_space (specLine n m) ['\n'] (by decide)).trans (specLine_words n m)
  obtain ⟨s, hs⟩ : ∃ s, specLine n m ++ ['\n'] = 'p' :: s :=
    ⟨" cnf ".toList ++ (natStr n ++ (" ".toList ++ (natStr m ++ ['\n']))), by rw [specLine_eq]; simp⟩
  rw [hs] at e ⊢
  simp only [dimLine]
  rw [if_neg (by omega), e]
  simp only
  rw [parseInt_natStr', parseInt_natStr']
  rfl

theorem foldl_dimLit (c : List Int) (h : (0 : Int) ∉ c) (st : DimSt) :
    (c ++ [0]).foldl dimLit st = { st with clauses := st.clauses ++ [st.buffer ++ c], buffer := [] } := by
  induction c generalizing st with
  | nil => simp [dimLit]
  | cons x c ih =>
    simp only [List.mem_cons, not_or] at h
    rw [List.cons_append, List.foldl_cons, ih h.2]
    have : dimLit st x = { st with buffer := st.buffer ++ [x] } := if_neg fun e => h.1 e.symm
    rw [this]; simp

theorem dimLine_clause (st : DimSt) {c : List Int} (h : (0 : Int) ∉ c) {x : Str} (hx : x = clauseLine c ∨ x = clauseLine c ++ ['\n']) :
    dimLine st x = pure { st with clauses := st.clauses ++ [st.buffer ++ c], buffer := [] } := by
  have e : splitWS x = (c ++ [0]).map intStr := by
    rcases hx with rfl | rfl
    · exact clauseLine_words c
    · exact (splitWS_append_space (clauseLine c) ['\n'] (by decide)).trans (clauseLine_words c)
  obtain ⟨a, s, ha, _, h1, h2⟩ := line_first (is := c ++ [0]) (by simp)
  obtain ⟨s', hs⟩ : ∃ s', x = a :: s' := by
    rcases hx with rfl | rfl
    · exact ⟨s, ha⟩
    · exact ⟨s ++ ['\n'], by rw [clauseLine, ha]; rfl⟩
  rw [hs] at e ⊢
  unfold dimLine
  split
  · next h => simp at h
  · next h => simp at h; exact absurd h.1 h1
  · next h => simp at h; exact absurd h.1 h2
  · rw [e, mapOpt_intStr]
    show (pure ((c ++ [0]).foldl dimLit st) : M DimSt) = _
    rw [foldl_dimLit c h]

theorem dimLine_clauses (cs : List (List Int)) (h : ∀ c ∈ cs, (0 : Int) ∉ c) (xs : List Str)
    (hx : List.Forall₂ (fun x c => x = clauseLine c ∨ x = clauseLine c ++ ['\n']) xs cs) (st : DimSt) (hb : st.buffer = []) :
    xs.foldlM dimLine st = pure { st with clauses := st.clauses ++ cs } := by
  induction hx generalizing st with
  | nil => simp
  | cons h1 h2 ih =>
    rw [List.foldlM_cons, dimLine_clause st (h _ (by simp)) h1, M.pure_bind, ih (fun c hc => h c (by simp [hc]))]
    · simp [hb]
    · rfl

/-! ### the text -/

/-- The header text kept in the comments: every line that ends with a line break, without blanks at its end, and all lines of the extra
text. -/
def keptHeader : Option (Str × Option Str) → List Str
  | none => []
  | some (h, e) => (splitOn '\n' h).dropLast ++ (match e with | none => [] | some e => splitOn '\n' e)

theorem splitOn_no_nl (s : Str) : ∀ w ∈ splitOn '\n' s, '\n' ∉ w := by
  induction s with
  | nil => simp [splitOn]
  | cons c s ih =>
    intro w hw
    simp only [splitOn] at hw
    split at hw
    · rcases List.mem_cons.1 hw with rfl | hw
      · simp
      · exact ih w hw
    · next hc =>
      split at hw
      · next e => exact absurd e (splitOn_ne_nil _ _)
      · next a as e =>
        rcases List.mem_cons.1 hw with rfl | hw
        · have := ih a (by rw [e]; simp)
          simp only [List.mem_cons, not_or]
          exact ⟨fun e => hc e.symm, this⟩
        · exact ih w (by rw [e]; simp [hw])

theorem keptHeader_nl (hdr : Option (Str × Option Str)) : ∀ l ∈ keptHeader hdr, '\n' ∉ l := by
  intro l hl
  match hdr, hl with
  | none, hl => simp [keptHeader] at hl
  | some (h, none), hl =>
    simp only [keptHeader, List.append_nil] at hl
    exact splitOn_no_nl h l (List.mem_of_mem_dropLast hl)
  | some (h, some e), hl =>
    simp only [keptHeader, List.mem_append] at hl
    rcases hl with hl | hl
    · exact splitOn_no_nl h l (List.mem_of_mem_dropLast hl)
    · exact splitOn_no_nl e l hl

/-- The lines of the file. -/
def fileLines (hdr : Option (Str × Option Str)) (n : Nat) (cs : List (List Int)) : List Str :=
  (keptHeader hdr).map commentLine ++ specLine n cs.length :: (if cs = [] then [[]] else cs.map clauseLine)

theorem dimacsText_eq (hdr : Option (Str × Option Str)) {F : CNF V} (hF : Proper F.vars F.clauses) :
    dimacsText hdr F = pure (joinWith ['\n'] (fileLines hdr F.vars.length F.clauses)) := by
  unfold dimacsText
  rw [CNF.coherent_iff.2 hF, fileLines, ← lines_join]
  simp only [Bool.not_true, Bool.false_eq_true, if_false]
  congr 1
  have e : headerPart hdr = (keptHeader hdr).map commentLine := by
    match hdr with
    | none => rfl
    | some (h, none) => simp [headerPart, headerLines, keptHeader]
    | some (h, some e) => simp [headerPart, headerLines, keptHeader]
  by_cases hc : F.clauses = []
  · rw [e, hc, specLine_eq]; simp
  · rw [e, if_neg (by simpa using hc), if_neg hc]
    simp only [List.append_nil, List.append_assoc, List.flatMap_map, specLine_eq]
    rfl

theorem fileLines_nl (hdr : Option (Str × Option Str)) (n : Nat) (cs : List (List Int)) : ∀ l ∈ fileLines hdr n cs, '\n' ∉ l := by
  intro l hl
  rcases List.mem_append.1 hl with hl | hl
  · obtain ⟨s, hs, rfl⟩ := List.mem_map.1 hl
    exact nl_commentLine (keptHeader_nl hdr s hs)
  rcases List.mem_cons.1 hl with rfl | hl
  · exact nl_specLine _ _
  · split at hl
    · simp at hl; simp [hl]
    · obtain ⟨c, _, rfl⟩ := List.mem_map.1 hl
      exact clauseLine_nl _

theorem split_text (hdr : Option (Str × Option Str)) (n : Nat) (cs : List (List Int)) :
    splitOn '\n' (joinWith ['\n'] (fileLines hdr n cs)) = fileLines hdr n cs :=
  splitOn_joinWith '\n' _ (by simp [fileLines]) (fileLines_nl hdr n cs)

theorem forall₂_dropLast {ls : List Str} (h : ls ≠ []) : List.Forall₂ (fun x l => x = l ∨ x = l ++ ['\n'])
    (ls.dropLast.map (· ++ ['\n']) ++ [ls.getLastD []]) ls := by
  induction ls with
  | nil => exact absurd rfl h
  | cons l ls ih =>
    cases ls with
    | nil => simp
    | cons l' ls =>
      have := ih (by simp)
      simp only [List.dropLast_cons_cons, List.map_cons, List.cons_append]
      refine List.Forall₂.cons (Or.inr rfl) ?_
      simpa using this

theorem clauseLine_ne_nil (c : List Int) : clauseLine c ≠ [] := by
  obtain ⟨a, s, ha, _⟩ := line_first (is := c ++ [0]) (by simp)
  rw [clauseLine, ha]; simp

/-- The lines the generator's reader sees. -/
theorem readlines_text (hdr : Option (Str × Option Str)) (n : Nat) (cs : List (List Int)) :
    ∃ xs, readlines (joinWith ['\n'] (fileLines hdr n cs)) =
      ((keptHeader hdr).map fun l => commentLine l ++ ['\n']) ++ (specLine n cs.length ++ ['\n']) :: xs ∧
      List.Forall₂ (fun x c => x = clauseLine c ∨ x = clauseLine c ++ ['\n']) xs cs := by
  unfold readlines
  rw [split_text]
  by_cases hc : cs = []
  · subst hc
    refine ⟨[], ?_, List.Forall₂.nil⟩
    have e : fileLines hdr n [] = ((keptHeader hdr).map commentLine ++ [specLine n 0]) ++ [[]] := by simp [fileLines]
    rw [e, List.dropLast_concat]
    simp [Function.comp_def]
  · refine ⟨(cs.map clauseLine).dropLast.map (· ++ ['\n']) ++ [(cs.map clauseLine).getLastD []], ?_, ?_⟩
    · obtain ⟨cs', c, rfl⟩ : ∃ cs' c, cs = cs' ++ [c] := ⟨_, _, (List.dropLast_append_getLast hc).symm⟩
      have e : fileLines hdr n (cs' ++ [c]) = ((keptHeader hdr).map commentLine ++
          specLine n (cs' ++ [c]).length :: cs'.map clauseLine) ++ [clauseLine c] := by simp [fileLines]
      rw [e, List.dropLast_concat]
      have e3 : (cs' ++ [c]).map clauseLine = cs'.map clauseLine ++ [clauseLine c] := by simp
      rw [e3, List.dropLast_concat]
      have e2 : ∀ l : List Str, (l ++ [clauseLine c]).getLastD [] = clauseLine c := by intro l; simp [List.getLastD_eq_getLast?]
      rw [e2, e2, if_neg (clauseLine_ne_nil c)]
      simp [Function.comp_def]
    · have := forall₂_dropLast (ls := cs.map clauseLine) (by simpa using hc)
      rw [List.forall₂_map_right_iff] at this
      exact this

/-! ### C57 -/

theorem addVariables_oneTo (n : Nat) : (({} : CNF Nat).addVariables (oneTo n)) = ⟨oneTo n, []⟩ := by
  have h1 := CNF.addVariables_vars (F := ({} : CNF Nat)) (oneTo_nodup n) (by simp)
  have h2 := CNF.addVariables_clauses (F := ({} : CNF Nat)) (vs := oneTo n)
  cases h : ({} : CNF Nat).addVariables (oneTo n) with
  | mk vs cs =>
    rw [h] at h1 h2
    simp at h1 h2
    rw [h1, h2]

theorem Proper.noZero {vs : List V} {cs : List (List Int)} (h : Proper vs cs) : ∀ c ∈ cs, (0 : Int) ∉ c := by
  intro c hc h0
  have := (h.2 c hc 0 h0).1
  simp at this

theorem splitOn_flat (ls : List Str) (h : ∀ l ∈ ls, '\n' ∉ l) : (splitOn '\n' (ls.flatMap fun l => l ++ ['\n'])).dropLast = ls := by
  rw [splitOn_lines ls h]; simp

/-- Every header line is written as one comment, so reading and writing again changes nothing. -/
theorem keptHeader_again (hdr : Option (Str × Option Str)) :
    (keptHeader (some ((keptHeader hdr).flatMap fun l => rstrip l ++ ['\n'], none))).map commentLine = (keptHeader hdr).map commentLine := by
  have e : ((keptHeader hdr).flatMap fun l => rstrip l ++ ['\n']) = ((keptHeader hdr).map rstrip).flatMap fun l => l ++ ['\n'] := by
    rw [List.flatMap_map]
  simp only [keptHeader, List.append_nil]
  show List.map commentLine (splitOn '\n' ((keptHeader hdr).flatMap fun l => rstrip l ++ ['\n'])).dropLast = _
  rw [e, splitOn_flat, List.map_map]
  · exact List.map_congr_left fun l _ => commentLine_rstrip l
  · intro l hl
    obtain ⟨s, hs, rfl⟩ := List.mem_map.1 hl
    exact fun h => keptHeader_nl hdr s hs (mem_rstrip h)

/-- C57: what the generator writes as DIMACS it reads back: the same clauses over as many variables (now called 1, 2, ...), with the
header it printed (the header lines that end with a line break and the lines of the extra text, without blanks at their end).  Writing
that again gives the same text. -/
theorem C57_dimacs_roundtrip (hdr : Option (Str × Option Str)) (F : CNF V) (hF : Proper F.vars F.clauses) :
    ∃ text, dimacsText hdr F = pure text ∧
      dimacs2cnf text = pure ((keptHeader hdr).flatMap (fun l => rstrip l ++ ['\n']), ⟨oneTo F.vars.length, F.clauses⟩) ∧
      dimacsText (some ((keptHeader hdr).flatMap (fun l => rstrip l ++ ['\n']), none)) (⟨oneTo F.vars.length, F.clauses⟩ : CNF Nat) =
        pure text := by
  refine ⟨_, dimacsText_eq hdr hF, ?_, ?_⟩
  · obtain ⟨xs, hr, hxs⟩ := readlines_text hdr F.vars.length F.clauses
    unfold dimacs2cnf dimacs2compressed
    rw [hr, List.foldlM_append, dimLine_comments, M.pure_bind, List.foldlM_cons, dimLine_spec _ (show (-1 : Int) < 0 by decide), M.pure_bind,
      dimLine_clauses F.clauses hF.noZero xs hxs _ rfl, M.pure_bind]
    simp only [List.length_nil, Nat.lt_irrefl, if_false, List.nil_append, ne_eq, not_true_eq_false]
    rw [M.pure_bind]
    simp only [Int.toNat_natCast, addVariables_oneTo, List.nil_append]
  · have hP : Proper (oneTo F.vars.length) F.clauses := ⟨oneTo_nodup _, by rw [length_oneTo]; exact hF.2⟩
    rw [dimacsText_eq _ (F := ⟨oneTo F.vars.length, F.clauses⟩) hP]
    congr 2
    simp only [fileLines, length_oneTo]
    rw [keptHeader_again]

theorem notProper_dimacs (hdr : Option (Str × Option Str)) (F : CNF V) (hF : ¬ Proper F.vars F.clauses) :
    dimacsText hdr F = raise .assertionError := by
  unfold dimacsText
  cases h : F.coherent
  · rfl
  · exact absurd (CNF.coherent_iff.1 h) hF

/-! ### The solver reads it -/

theorem flatMap_clauseLine (cs : List (List Int)) :
    (cs.map clauseLine).flatMap (fun l => if isComment l || isProblem l then [] else splitWS l) = (cs.flatMap fun c => c ++ [0]).map intStr := by
  induction cs with
  | nil => rfl
  | cons c cs ih =>
    have hg := clauseLine_good (is := c ++ [0]) (by simp)
    rw [List.map_cons, List.flatMap_cons, ih]
    have h1 : isComment (clauseLine c) = false := hg.2.2.1
    have h2 : isProblem (clauseLine c) = false := hg.2.2.2
    rw [h1, h2, clauseLine_words, List.flatMap_cons, List.map_append (l₁ := c ++ [0])]
    rfl

theorem specLine_p (n m : Nat) : ∃ s, specLine n m = 'p' :: s := by
  rw [specLine_eq]; exact ⟨_, rfl⟩

/-- The text is DIMACS in the layout the solver reads faithfully, and it stands for the clauses. -/
theorem C57_dimacs_standard (hdr : Option (Str × Option Str)) (F : CNF V) (hF : Proper F.vars F.clauses) :
    ∃ text, dimacsText hdr F = pure text ∧ GoodDimacs text ∧ dimacsFormula text = some F.clauses := by
  refine ⟨_, dimacsText_eq hdr hF, ?_, ?_⟩
  · have hgood : ∀ l ∈ (keptHeader hdr).map commentLine ++ specLine F.vars.length F.clauses.length :: F.clauses.map clauseLine,
        isBlank l = false ∧ GoodLine l := by
      intro l hl
      rcases List.mem_append.1 hl with hl | hl
      · obtain ⟨s, _, rfl⟩ := List.mem_map.1 hl
        rw [rstrip_cons]
        exact ⟨isBlank_cons (by decide) _, Or.inl (isComment_c _)⟩
      rcases List.mem_cons.1 hl with rfl | hl
      · obtain ⟨s, hs⟩ := specLine_p F.vars.length F.clauses.length
        have hw := specLine_words F.vars.length F.clauses.length
        rw [hs] at hw ⊢
        exact ⟨isBlank_cons (by decide) _, Or.inr (Or.inl ⟨(isProblem_p s).1, by rw [hw]; rfl⟩)⟩
      · obtain ⟨c, _, rfl⟩ := List.mem_map.1 hl
        have hg := clauseLine_good (is := c ++ [0]) (by simp)
        exact ⟨hg.1, hg.2.1⟩
    obtain ⟨bl, hbl, hlines⟩ : ∃ bl : List Str, (∀ l ∈ bl, isBlank l = true) ∧ fileLines hdr F.vars.length F.clauses =
        ((keptHeader hdr).map commentLine ++ specLine F.vars.length F.clauses.length :: F.clauses.map clauseLine) ++ bl := by
      by_cases hc : F.clauses = []
      · exact ⟨[[]], by simp [isBlank], by simp [fileLines, hc]⟩
      · exact ⟨[], by simp, by simp [fileLines, hc]⟩
    have hfirst : ∀ l ∈ (keptHeader hdr).map commentLine ++ [specLine F.vars.length F.clauses.length],
        isComment l = true ∨ isProblem l = true ∨ isBlank l = true := by
      intro l hl
      rcases List.mem_append.1 hl with hl | hl
      · obtain ⟨s, _, rfl⟩ := List.mem_map.1 hl
        rw [rstrip_cons]
        exact Or.inl (isComment_c _)
      · simp at hl
        obtain ⟨s, hs⟩ := specLine_p F.vars.length F.clauses.length
        rw [hl, hs]
        exact Or.inr (Or.inl (isProblem_p s).1)
    cases hk : (keptHeader hdr).map commentLine with
    | nil =>
      rw [hk] at hgood hlines hfirst
      refine ⟨_, _, bl, (split_text hdr _ _).trans hlines, hfirst _ (by simp), ?_, hbl⟩
      intro l hl; exact hgood l (by simp [List.mem_map.1 hl])
    | cons a as =>
      rw [hk] at hgood hlines hfirst
      refine ⟨_, _, bl, (split_text hdr _ _).trans hlines, hfirst _ (by simp), ?_, hbl⟩
      intro l hl; exact hgood l (List.mem_cons_of_mem _ hl)
  · unfold dimacsFormula dimacsTokens
    rw [split_text, fileLines, List.flatMap_append, List.flatMap_cons]
    have h1 : ((keptHeader hdr).map commentLine).flatMap (fun l => if isComment l || isProblem l then [] else splitWS l) = [] := by
      rw [List.flatMap_eq_nil_iff]
      intro l hl
      obtain ⟨s, hs, rfl⟩ := List.mem_map.1 hl
      rw [rstrip_cons]
      simp [isComment_c]
    have h2 : (if F.clauses = [] then [[]] else F.clauses.map clauseLine).flatMap
        (fun l => if isComment l || isProblem l then [] else splitWS l) = (F.clauses.flatMap fun c => c ++ [0]).map intStr := by
      by_cases hc : F.clauses = []
      · rw [if_pos hc, hc]; simp [splitWS]
      · rw [if_neg hc, flatMap_clauseLine]
    obtain ⟨s, hs⟩ := specLine_p F.vars.length F.clauses.length
    rw [h1, h2, hs, (isProblem_p s).1]
    simp only [Bool.or_true, if_true, List.nil_append]
    rw [mapOpt_intStr, Option.map_some, cutClauses_all F.clauses hF.noZero]

/-- C57: the solver reads the written file as the formula, if its clauses have one to three literals. -/
theorem C57_solver_reads {H : Type} (hdr : Option (Str × Option Str)) (F : CNF V) (hF : Proper F.vars F.clauses)
    (h3 : ∀ c ∈ F.clauses, c ≠ [] ∧ c.length ≤ 3) :
    ∃ text, dimacsText hdr F = pure text ∧ ∃ root : SetObj H, readInput .dimacs text = pure root ∧ ReadsAs root F.clauses := by
  obtain ⟨text, h1, h2, h3'⟩ := C57_dimacs_standard hdr F hF
  exact ⟨text, h1, C21_dimacs_faithful_partial h2 h3' h3⟩

/-- C57: a whole run of the solver (without hash collisions) on the written file says whether the generated formula can be satisfied. -/
theorem C57_solver_verdict {H : Type} [DecidableEq H] (hash : Str → H) {ma : MainArgs} (ha : Local ma.args)
    (hfact : ma.args.factorize = false) (hm : ma.args.multiply = none) {env : EnvChoice} (hf : Fair ma.args env) (g : Gdb H)
    (hdr : Option (Str × Option Str)) (F : CNF V) (hF : Proper F.vars F.clauses) (h3 : ∀ c ∈ F.clauses, c ≠ [] ∧ c.length ≤ 3)
    (ht : ∃ c ∈ F.clauses, ¬ Spec.Tautology c) :
    ∃ text root, dimacsText hdr F = pure text ∧ readInput .dimacs text = pure root ∧
      ((∀ k, NoCollisions hash ma.args { root with computedHash := some k }) →
        ∃ out rep, mainRun hash ma env g .dimacs text = some out ∧ out.report = some rep ∧ out.error = none ∧
          (rep.isSat = true ↔ ∃ α, Holds F.vars F.clauses α)) := by
  obtain ⟨text, h1, root, h2, h4⟩ := C57_solver_reads (H := H) hdr F hF h3
  refine ⟨text, root, h1, h2, fun hcoll => ?_⟩
  obtain ⟨out, rep, e1, e2, e3, e4, _⟩ := C24_main_verdict_partial hash ha hfact hm hf g h2 h4
    (fun c hc => ⟨(h3 c hc).1, hF.noZero c hc⟩) ht hcoll
  exact ⟨out, rep, e1, e2, e3, e4.trans hF.sat⟩

/-- An example: two variables, header with blanks at the end of a line and a last line without line break. -/
example : dimacsText (some ("ab  \ncd".toList, some "e".toList)) ({ vars := ["x".toList, "y".toList], clauses := [[1, -2], [2]] } : CNF Str) =
      pure "c ab\nc e\np cnf 2 2\n1 -2 0\n2 0".toList ∧
    dimacs2cnf "c ab\nc e\np cnf 2 2\n1 -2 0\n2 0".toList = pure ("ab\ne\n".toList, ⟨[1, 2], [[1, -2], [2]]⟩) := by
  constructor <;> rfl

end NDP.Cnfgen
