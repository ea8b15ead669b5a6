import Verif.SpecIO
import Verif.Model.Reader
import Verif.Lib.M
import Verif.Lib.Str
import Verif.Proofs.Body
import Verif.Proofs.Clause
/- Reading DIMACS and single-line formulas. -/
namespace NDP
open Spec

/-! ### words -/

theorem mem_takeWhile_imp {p : Char → Bool} {s : Str} {c : Char} (h : c ∈ s.takeWhile p) : p c = true := by
  induction s with
  | nil => simp at h
  | cons d ds ih =>
    by_cases hd : p d = true
    · rw [List.takeWhile_cons_of_pos hd, List.mem_cons] at h
      rcases h with rfl | h
      · exact hd
      · exact ih h
    · rw [List.takeWhile_cons_of_neg hd] at h; simp at h

theorem dropWhile_all {p : Char → Bool} {s : Str} (h : ∀ c ∈ s, p c = true) : s.dropWhile p = [] := by
  induction s with
  | nil => rfl
  | cons d ds ih => rw [List.dropWhile_cons_of_pos (h d (by simp)), ih (fun x hx => h x (by simp [hx]))]

theorem splitWS_cons_space {c : Char} (hc : isPySpace c = true) (s : Str) : splitWS (c :: s) = splitWS s := by
  rw [splitWS.eq_def]; simp [hc]

theorem splitWS_blank {s : Str} (h : ∀ c ∈ s, isPySpace c = true) : splitWS s = [] := by
  induction s with
  | nil => rfl
  | cons c cs ih => rw [splitWS_cons_space (h c (by simp)), ih (fun x hx => h x (by simp [hx]))]

theorem splitWS_dropWhile (s : Str) : splitWS (s.dropWhile isPySpace) = splitWS s := by
  induction s with
  | nil => rfl
  | cons c cs ih =>
    by_cases hc : isPySpace c = true
    · rw [List.dropWhile_cons_of_pos hc, ih, splitWS_cons_space hc]
    · rw [List.dropWhile_cons_of_neg hc]

theorem splitWS_append_space (s t : Str) (ht : ∀ c ∈ t, isPySpace c = true) : splitWS (s ++ t) = splitWS s := by
  induction s with
  | nil => simpa [splitWS] using splitWS_blank ht
  | cons c cs ih =>
    rw [List.cons_append, splitWS.eq_def, splitWS.eq_def (c :: cs)]
    simp only
    by_cases hc : isPySpace c = true
    · simp [hc, ih]
    · simp only [hc, if_false, Bool.false_eq_true]
      cases cs with
      | nil =>
        cases t with
        | nil => rfl
        | cons d ds =>
          have hd : isPySpace d = true := ht d (by simp)
          have := splitWS_blank ht
          simp only [List.nil_append] at ih ⊢
          simp [hd, this]
      | cons d ds =>
        simp only [List.cons_append] at ih ⊢
        rw [ih]

theorem strip_decomp (s : Str) : ∃ a b : Str, (∀ c ∈ a, isPySpace c = true) ∧ (∀ c ∈ b, isPySpace c = true) ∧
    s = a ++ strip s ++ b ∧ s.dropWhile isPySpace = strip s ++ b := by
  have h1 : s = s.takeWhile isPySpace ++ s.dropWhile isPySpace := (List.takeWhile_append_dropWhile).symm
  have h2 : (s.dropWhile isPySpace) = strip s ++ ((s.dropWhile isPySpace).reverse.takeWhile isPySpace).reverse := by
    unfold strip
    rw [← List.reverse_append, List.takeWhile_append_dropWhile, List.reverse_reverse]
  refine ⟨s.takeWhile isPySpace, ((s.dropWhile isPySpace).reverse.takeWhile isPySpace).reverse, ?_, ?_, ?_, h2⟩
  · intro c hc; exact mem_takeWhile_imp hc
  · intro c hc; exact mem_takeWhile_imp (List.mem_reverse.1 hc)
  · rw [List.append_assoc, ← h2]; exact h1

theorem splitWS_strip (s : Str) : splitWS (strip s) = splitWS s := by
  obtain ⟨a, b, ha, hb, e, e2⟩ := strip_decomp s
  rw [← splitWS_dropWhile s, e2, splitWS_append_space _ _ hb]

theorem mem_strip {s : Str} {c : Char} (h : c ∈ strip s) : c ∈ s := by
  obtain ⟨a, b, _, _, e, _⟩ := strip_decomp s
  rw [e]; simp [h]

theorem strip_eq_nil_iff (s : Str) : strip s = [] ↔ ∀ c ∈ s, isPySpace c = true := by
  obtain ⟨a, b, ha, hb, e, e2⟩ := strip_decomp s
  constructor
  · intro h c hc
    rw [e, h] at hc
    simp only [List.append_nil, List.mem_append] at hc
    exact hc.elim (ha c) (hb c)
  · intro h
    have : s.dropWhile isPySpace = [] := dropWhile_all h
    unfold strip; rw [this]; rfl

/-- First visible character. -/
theorem startsWith_strip (x : Char) (hx : isPySpace x = false) (s : Str) :
    startsWith x (strip s) = startsWith x (s.dropWhile isPySpace) := by
  obtain ⟨a, b, ha, hb, e, e2⟩ := strip_decomp s
  rw [e2]
  cases h : strip s with
  | nil =>
    cases b with
    | nil => rfl
    | cons d ds =>
      simp only [List.nil_append, startsWith]
      have := hb d (by simp)
      symm
      simp only [decide_eq_false_iff_not]
      rintro rfl
      rw [hx] at this; simp at this
  | cons d ds => rfl

/-- When blanks are the only white space, the non-empty pieces between blanks are the words. -/
theorem pieces_eq_words (s : Str) (h : ∀ c ∈ s, isPySpace c = true → c = ' ') :
    (splitOn ' ' s).filter (fun w => !w.isEmpty) = splitWS s := by
  induction s with
  | nil => rfl
  | cons c cs ih =>
    have ih := ih (fun x hx => h x (by simp [hx]))
    rw [splitOn, splitWS.eq_def]
    by_cases hc : c = ' '
    · subst hc
      have : isPySpace ' ' = true := by decide
      simp [this, ih]
    · have hcs : isPySpace c = false := by
        cases hh : isPySpace c
        · rfl
        · exact absurd (h c (by simp) hh) hc
      simp only [hc, if_false, hcs, Bool.false_eq_true]
      cases cs with
      | nil => simp [splitOn]
      | cons d ds =>
        simp only
        by_cases hd : isPySpace d = true
        · have hd' : d = ' ' := h d (by simp) hd
          subst hd'
          simp only [hd, if_true]
          rw [← ih, splitOn]
          simp
        · have hd' : d ≠ ' ' := by rintro rfl; exact hd (by decide)
          simp only [hd, Bool.false_eq_true, if_false]
          rw [← ih]
          rw [splitOn]
          simp only [hd', if_false]
          cases hsp : splitOn ' ' ds with
          | nil => exact absurd hsp (splitOn_ne_nil _ _)
          | cons w ws => simp

/-! ### readline -/

theorem readline_cons (l rest : Str) (h : '\n' ∉ l) : readline (l ++ '\n' :: rest) = (l ++ ['\n'], rest) := by
  induction l with
  | nil => simp [readline]
  | cons c cs ih =>
    simp only [List.mem_cons, not_or] at h
    simp only [List.cons_append, readline]
    rw [if_neg (fun e => h.1 e.symm), ih h.2]

theorem readline_last (l : Str) (h : '\n' ∉ l) : readline l = (l, []) := by
  induction l with
  | nil => rfl
  | cons c cs ih =>
    simp only [List.mem_cons, not_or] at h
    simp only [readline]
    rw [if_neg (fun e => h.1 e.symm), ih h.2]

theorem mem_splitOn_no_sep (sep : Char) (s : Str) : ∀ w ∈ splitOn sep s, sep ∉ w := by
  induction s with
  | nil => simp [splitOn]
  | cons c cs ih =>
    intro w hw
    rw [splitOn] at hw
    split at hw
    · simp only [List.mem_cons] at hw
      rcases hw with rfl | hw
      · simp
      · exact ih w hw
    · rename_i hc
      cases hsp : splitOn sep cs with
      | nil => exact absurd hsp (splitOn_ne_nil _ _)
      | cons v vs =>
        rw [hsp] at hw ih
        simp only [List.mem_cons] at hw
        rcases hw with rfl | hw
        · simp only [List.mem_cons, not_or]
          exact ⟨fun e => hc e.symm, ih v (by simp)⟩
        · exact ih w (by simp [hw])

theorem joinWith_splitOn (sep : Char) (s : Str) : joinWith [sep] (splitOn sep s) = s := by
  induction s with
  | nil => rfl
  | cons c cs ih =>
    rw [splitOn]
    split
    · rename_i hc
      subst hc
      cases hsp : splitOn c cs with
      | nil => exact absurd hsp (splitOn_ne_nil _ _)
      | cons v vs => rw [hsp] at ih; simp [joinWith, ih]
    · cases hsp : splitOn sep cs with
      | nil => exact absurd hsp (splitOn_ne_nil _ _)
      | cons v vs =>
        rw [hsp] at ih
        simp only
        cases vs with
        | nil => simp [joinWith] at ih ⊢; exact ih
        | cons u us => simp [joinWith] at ih ⊢; exact ih

theorem strip_append_space (s t : Str) (ht : ∀ c ∈ t, isPySpace c = true) : strip (s ++ t) = strip s := by
  by_cases hs : ∀ c ∈ s, isPySpace c = true
  · rw [(strip_eq_nil_iff s).2 hs, strip_eq_nil_iff]
    intro c hc
    rcases List.mem_append.1 hc with h | h
    · exact hs c h
    · exact ht c h
  · unfold strip
    have : (s ++ t).dropWhile isPySpace = s.dropWhile isPySpace ++ t := by
      induction s with
      | nil => exact absurd (by simp) hs
      | cons c cs ih =>
        by_cases hc : isPySpace c = true
        · rw [List.cons_append, List.dropWhile_cons_of_pos hc, List.dropWhile_cons_of_pos hc]
          apply ih
          intro h
          apply hs
          intro x hx
          rcases List.mem_cons.1 hx with rfl | hx
          · exact hc
          · exact h x hx
        · rw [List.cons_append, List.dropWhile_cons_of_neg hc, List.dropWhile_cons_of_neg hc]; rfl
    rw [this, List.reverse_append]
    congr 1
    have hrev : ∀ c ∈ t.reverse, isPySpace c = true := fun c hc => ht c (List.mem_reverse.1 hc)
    generalize t.reverse = u at hrev
    induction u with
    | nil => rfl
    | cons c cs ih =>
      rw [List.cons_append, List.dropWhile_cons_of_pos (hrev c (by simp))]
      exact ih (fun x hx => hrev x (by simp [hx]))

/-! ### the loop of the DIMACS reader -/

/-- The loop reads the lines up to the first blank one. -/
theorem dimacs_loop (body blanks : List Str) (hb : ∀ l ∈ body, isBlank l = false) (hbl : ∀ l ∈ blanks, isBlank l = true)
    (hnl : ∀ l ∈ body ++ blanks, '\n' ∉ l) (d : Str) (hd : d ≠ []) (st : DimacsSt) :
    pyWhile dimacsStep { dline := d, rest := joinWith ['\n'] (body ++ blanks), st := st } =
      body.foldlM (fun st l => dimacsLine st (strip l)) st := by
  have hde : d.isEmpty = false := by cases d with | nil => exact absurd rfl hd | cons => rfl
  have hempty : ∀ (rest : Str) (st : DimacsSt), pyWhile dimacsStep { dline := [], rest := rest, st := st } = pure st := by
    intro rest st
    exact pyWhile_inr rfl
  have hsp : ∀ c ∈ ['\n'], isPySpace c = true := by
    intro c hc; simp at hc; subst hc; decide
  induction body generalizing d st with
  | nil =>
    simp only [List.nil_append, List.foldlM_nil]
    have hline : strip (readline (joinWith ['\n'] blanks)).1 = [] := by
      match blanks, hbl, hnl with
      | [], _, _ => rfl
      | [b], hbl, hnl =>
        show strip (readline b).1 = []
        rw [readline_last b (hnl b (by simp)), strip_eq_nil_iff]
        simpa [isBlank] using hbl b (by simp)
      | b :: b' :: bs, hbl, hnl =>
        have : joinWith ['\n'] (b :: b' :: bs) = b ++ '\n' :: joinWith ['\n'] (b' :: bs) := by
          simp [joinWith]
        rw [this, readline_cons _ _ (hnl b (by simp)), strip_append_space _ _ hsp, strip_eq_nil_iff]
        simpa [isBlank] using hbl b (by simp)
    rw [pyWhile_eq]
    simp only [dimacsStep, hde, Bool.false_eq_true, if_false, hline]
    simp only [dimacsLine, List.isEmpty_nil, if_true, M.pure_bind]
    exact hempty _ _
  | cons l ls ih =>
    have hstrip : ∀ rest', (readline (joinWith ['\n'] (l :: ls ++ blanks))) = rest' →
        strip rest'.1 = strip l ∧ rest'.2 = joinWith ['\n'] (ls ++ blanks) := by
      intro rest' hr
      subst hr
      cases hrest : ls ++ blanks with
      | nil =>
        rw [List.cons_append, hrest]
        show strip (readline l).1 = strip l ∧ (readline l).2 = []
        rw [readline_last l (hnl l (by simp))]
        exact ⟨rfl, rfl⟩
      | cons x xs =>
        rw [List.cons_append, hrest]
        have : joinWith ['\n'] (l :: x :: xs) = l ++ '\n' :: joinWith ['\n'] (x :: xs) := by simp [joinWith]
        rw [this, readline_cons _ _ (hnl l (by simp))]
        exact ⟨strip_append_space _ _ hsp, rfl⟩
    obtain ⟨h1, h2⟩ := hstrip _ rfl
    have hne : strip l ≠ [] := by
      rw [Ne, strip_eq_nil_iff]
      have := hb l (by simp)
      intro hall
      rw [isBlank, Bool.eq_false_iff] at this
      exact this (List.all_eq_true.2 hall)
    rw [pyWhile_eq]
    simp only [dimacsStep, hde, Bool.false_eq_true, if_false, h1, h2, List.foldlM_cons]
    rcases M.cases (dimacsLine st (strip l)) with h | ⟨e, h⟩ | ⟨st', h⟩
    · rw [h]; rfl
    · rw [h]; rfl
    · rw [h]
      simp only [M.pure_bind]
      have hse : (strip l).isEmpty = false := by
        cases hs : strip l with | nil => exact absurd hs hne | cons => rfl
      exact ih (fun l hl => hb l (by simp [hl])) (fun x hx => hnl x (by
        rw [List.cons_append]; exact List.mem_cons_of_mem _ hx)) (strip l) hne st' hse

/-! ### lines and tokens -/

/-- The words of a line that count. -/
def lineWords (l : Str) : List Str := if isComment l || isProblem l then [] else splitWS l

theorem foldlM_skip_empty (ws : List Str) (st : DimacsSt) :
    ws.foldlM dimacsElem st = (ws.filter (fun w => !w.isEmpty)).foldlM dimacsElem st := by
  induction ws generalizing st with
  | nil => rfl
  | cons w ws ih =>
    by_cases hw : w.isEmpty = true
    · have : dimacsElem st w = pure st := by unfold dimacsElem; rw [if_pos hw]
      rw [List.foldlM_cons, this, M.pure_bind, ih]
      simp [hw]
    · simp only [Bool.not_eq_true] at hw
      rw [List.filter_cons_of_pos (by simp [hw]), List.foldlM_cons, List.foldlM_cons]
      congr 1; funext st'; exact ih st'

/-- A line the reader understands: a comment, a problem line with four fields, or a line in which words are separated
by blanks only. -/
def GoodLine (l : Str) : Prop :=
  isComment l = true ∨ (isProblem l = true ∧ (splitWS l).length = 4) ∨
  (isComment l = false ∧ isProblem l = false ∧ ∀ c ∈ strip l, isPySpace c = true → c = ' ')

theorem dimacsLine_eq (l : Str) (h : GoodLine l) (st : DimacsSt) :
    dimacsLine st (strip l) = (lineWords l).foldlM dimacsElem st := by
  unfold dimacsLine lineWords
  have hc := startsWith_strip 'c' (by decide) l
  have hp := startsWith_strip 'p' (by decide) l
  have he : (strip l).isEmpty = true → splitWS l = [] := by
    intro h; rw [← splitWS_strip l, List.isEmpty_iff.1 h]; rfl
  rw [hc, hp]
  show (if (strip l).isEmpty = true then _ else if isComment l = true then _ else if isProblem l = true then _ else _) = _
  rw [splitWS_strip]
  split
  · next h => rw [he h]; simp
  · split
    · next h => simp [h]
    · next hnc =>
      simp only [Bool.not_eq_true] at hnc
      split
      · next hpr =>
        rcases h with h | ⟨_, h⟩ | ⟨_, h, _⟩
        · rw [h] at hnc; simp at hnc
        · simp [h, hpr]
        · rw [h] at hpr; simp at hpr
      · next hpr =>
        simp only [Bool.not_eq_true] at hpr
        rcases h with h | ⟨h, _⟩ | ⟨_, _, h⟩
        · rw [h] at hnc; simp at hnc
        · rw [h] at hpr; simp at hpr
        · rw [hnc, hpr]
          simp only [Bool.or_self, Bool.false_eq_true, if_false]
          rw [foldlM_skip_empty, pieces_eq_words _ h, splitWS_strip]

theorem foldlM_lines (ls : List Str) (h : ∀ l ∈ ls, GoodLine l) (st : DimacsSt) :
    ls.foldlM (fun st l => dimacsLine st (strip l)) st = (ls.flatMap lineWords).foldlM dimacsElem st := by
  induction ls generalizing st with
  | nil => rfl
  | cons l ls ih =>
    rw [List.foldlM_cons, List.flatMap_cons, List.foldlM_append, dimacsLine_eq l (h l (by simp))]
    congr 1; funext st'; exact ih (fun l hl => h l (by simp [hl])) st'

theorem mem_splitWS_ne_nil (s : Str) : ∀ w ∈ splitWS s, w ≠ [] := by
  induction s with
  | nil => simp [splitWS]
  | cons c cs ih =>
    intro w hw
    rw [splitWS.eq_def] at hw
    simp only at hw
    split at hw
    · exact ih w hw
    · cases cs with
      | nil => simp at hw; subst hw; simp
      | cons d ds =>
        simp only at hw
        split at hw
        · rcases List.mem_cons.1 hw with rfl | hw
          · simp
          · exact ih w hw
        · cases hsp : splitWS (d :: ds) with
          | nil => rw [hsp] at hw; simp at hw; subst hw; simp
          | cons v vs =>
            rw [hsp] at hw ih
            rcases List.mem_cons.1 hw with rfl | hw
            · simp
            · exact ih w (by simp [hw])

theorem cutClauses_acc (acc : List Int) (ts : List Int) : cutClauses acc ts ≠ [] ∨ (acc = [] ∧ cutClauses acc ts = []) := by
  by_cases h : cutClauses acc ts = []
  · right
    refine ⟨?_, h⟩
    induction ts generalizing acc with
    | nil => simp only [cutClauses] at h; by_contra hn; rw [if_neg hn] at h; simp at h
    | cons t ts ih =>
      simp only [cutClauses] at h
      split at h
      · simp at h
      · have := ih _ h; simp at this
  · exact Or.inl h

/-- Reading a token stream. -/
theorem foldlM_tokens (ws : List Str) (ts : List Int) (hne : ∀ w ∈ ws, w ≠ []) (hp : mapOpt parseInt ws = some ts)
    (st : DimacsSt) (hG : ∀ c ∈ cutClauses st.clause ts, c ≠ [] ∧ c.length ≤ 3) :
    ∃ st', ws.foldlM dimacsElem st = pure st' ∧
      (if 0 < st'.clause.length then st'.done ++ [dedup st'.clause] else st'.done) =
        st.done ++ (cutClauses st.clause ts).map dedup := by
  induction ws generalizing ts st with
  | nil =>
    simp only [mapOpt, Option.some.injEq] at hp
    subst hp
    refine ⟨st, rfl, ?_⟩
    simp only [cutClauses]
    by_cases h : st.clause = []
    · simp [h]
    · have : 0 < st.clause.length := List.length_pos_iff.2 h
      simp [h, this]
  | cons w ws ih =>
    simp only [mapOpt] at hp
    cases hw : parseInt w with
    | none => rw [hw] at hp; simp at hp
    | some t =>
      rw [hw] at hp
      simp only at hp
      cases hws : mapOpt parseInt ws with
      | none => rw [hws] at hp; simp at hp
      | some ts' =>
        rw [hws] at hp
        simp only [Option.some.injEq] at hp
        subst hp
        have hwe : w.isEmpty = false := by
          cases hh : w with
          | nil => exact absurd hh (hne w (by simp))
          | cons => rfl
        have hne' : ∀ w ∈ ws, w ≠ [] := fun x hx => hne x (by simp [hx])
        by_cases ht : t = 0
        · subst ht
          simp only [cutClauses, if_true] at hG ⊢
          have hacc := hG st.clause (by simp)
          have hpos : st.clause.length ≠ 0 := by
            intro h; exact hacc.1 (List.length_eq_zero_iff.1 h)
          have hstep : dimacsElem st w = pure { clause := [], done := st.done ++ [dedup st.clause] } := by
            unfold dimacsElem
            simp only [hwe, Bool.false_eq_true, if_false, hw, true_and, hpos, if_true]
            rw [if_neg (by omega)]
          obtain ⟨st', h1, h2⟩ := ih ts' hne' hws { clause := [], done := st.done ++ [dedup st.clause] }
            (fun c hc => hG c (by simp only [List.mem_cons]; exact Or.inr hc))
          refine ⟨st', by rw [List.foldlM_cons, hstep, M.pure_bind, h1], ?_⟩
          rw [h2]; simp
        · simp only [cutClauses, ht, if_false] at hG ⊢
          have hstep : dimacsElem st w = pure { st with clause := st.clause ++ [t] } := by
            unfold dimacsElem
            simp only [hwe, Bool.false_eq_true, if_false, hw, ht, false_and]
          obtain ⟨st', h1, h2⟩ := ih ts' hne' hws { st with clause := st.clause ++ [t] } hG
          exact ⟨st', by rw [List.foldlM_cons, hstep, M.pure_bind, h1], h2⟩

/-! ### clauses with repeated literals and tautologies -/

theorem natAbs_nodup_of_no_taut {c : List Int} (hn : c.Nodup) (h0 : (0 : Int) ∉ c) (ht : ¬ Tautology c) :
    (c.map Int.natAbs).Nodup := by
  rw [List.Nodup, List.pairwise_map]
  refine (List.Pairwise.and_mem.1 hn).imp ?_
  rintro x y ⟨hx, hy, hxy⟩ e
  rcases Int.natAbs_eq_natAbs_iff.1 e with h | h
  · exact hxy h
  · exact ht ⟨x, hx, by rw [h]; simpa using hy⟩

/-- What `add_clause` builds from clauses of at most three literals, or without tautologies: the clauses that are not tautologies, each sorted
and without repetitions. -/
theorem raws_addAll {H : Type} (F : Cnf) (h : ∀ c ∈ F, ((dedup c).length ≤ 3 ∨ ¬ Tautology c) ∧ (0 : Int) ∉ c)
    (s : SetObj H) (i : Nat) (hv : s.value ≠ some false) (hsv : s.clauses ≠ [] → s.value = none) :
    raws (addAll s i (F.map dedup)).clauses =
      raws s.clauses ++ ((F.filter fun c => decide (¬ Tautology c)).map fun c => sortAbs (dedup c)) ∧
    (addAll s i (F.map dedup)).value ≠ some false ∧
    ((addAll s i (F.map dedup)).value = if (addAll s i (F.map dedup)).clauses = [] then
      (if F = [] then s.value else some true) else none) ∧
    (addAll s i (F.map dedup)).finalNamesMap = s.finalNamesMap ∧
    (addAll s i (F.map dedup)).evaluatedVars = s.evaluatedVars := by
  induction F generalizing s i with
  | nil =>
    simp only [List.map_nil, addAll, List.filter_nil, List.append_nil, true_and, and_true, if_true]
    refine ⟨hv, ?_⟩
    split
    · rfl
    · exact hsv ‹_›
  | cons c F ih =>
    have hF : ∀ c ∈ F, ((dedup c).length ≤ 3 ∨ ¬ Tautology c) ∧ (0 : Int) ∉ c := fun c hc => h c (by simp [hc])
    obtain ⟨h3, h0⟩ := h c (by simp)
    simp only [List.map_cons, addAll]
    have e0 : ((∃ l ∈ dedup c, -l ∈ dedup c ∧ l ≠ 0) ↔ Tautology c) := by
      constructor
      · rintro ⟨l, hl, hn, _⟩; exact ⟨l, by simpa using hl, by simpa using hn⟩
      · rintro ⟨l, hl, hn⟩
        exact ⟨l, by simpa using hl, by simpa using hn, fun e => h0 (e ▸ hl)⟩
    by_cases ht : Tautology c
    · have hcl := (Clause.ofList_le_three (dedup c) (nodup_dedup c) (h3.resolve_right (fun hn => hn ht))).1 (e0.2 ht)
      have hadd : s.addClause { Clause.ofList (dedup c) with initialIndex := i } =
          (if s.clauses.length = 0 then { s with value := some true } else s) := by
        rw [hcl]
        unfold SetObj.addClause
        simp only [hv, if_false, Option.some.injEq, true_and, reduceCtorEq, Bool.true_eq_false]
      rw [hadd]
      by_cases hcs : s.clauses.length = 0
      · simp only [hcs, if_true]
        obtain ⟨i1, i2, i3, i4, i5⟩ := ih hF { s with value := some true } (i + 1) (by simp)
          (fun h => absurd (List.length_eq_zero_iff.1 hcs) h)
        refine ⟨?_, i2, ?_, i4, i5⟩
        · rw [i1]; simp [ht]
        · rw [i3]
          simp [ht]
      · simp only [hcs, if_false]
        obtain ⟨i1, i2, i3, i4, i5⟩ := ih hF s (i + 1) hv hsv
        have hne : (addAll s (i + 1) (F.map dedup)).clauses ≠ [] := by
          intro e
          rw [e] at i1
          have := congrArg List.length i1
          simp only [raws, List.map_nil, List.length_nil, List.length_append, List.length_map] at this
          omega
        refine ⟨?_, i2, ?_, i4, i5⟩
        · rw [i1]; simp [ht]
        · rw [i3]
          simp [ht, hne]
    · have hnd := natAbs_nodup_of_no_taut (nodup_dedup c) (by simpa using h0)
        (fun ⟨l, hl, hn⟩ => ht ⟨l, by simpa using hl, by simpa using hn⟩)
      have hcl := Clause.ofList_nodup hnd
      have hadd : s.addClause { Clause.ofList (dedup c) with initialIndex := i } =
          { s with clauses := s.clauses ++ [{ raw := sortAbs (dedup c), initialIndex := i }], value := none } := by
        rw [hcl]
        unfold SetObj.addClause
        simp [hv]
      rw [hadd]
      obtain ⟨i1, i2, i3, i4, i5⟩ := ih hF
        { s with clauses := s.clauses ++ [{ raw := sortAbs (dedup c), initialIndex := i }], value := none } (i + 1) (by simp) (by simp)
      have hne : (addAll { s with clauses := s.clauses ++ [{ raw := sortAbs (dedup c), initialIndex := i }], value := none }
          (i + 1) (F.map dedup)).clauses ≠ [] := by
        intro e
        rw [e] at i1
        have := congrArg List.length i1
        simp [raws] at this
      refine ⟨?_, i2, ?_, i4, i5⟩
      · rw [i1]; simp [ht, raws]
      · rw [i3]
        simp only [hne, if_false]

end NDP
