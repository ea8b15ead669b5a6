import Verif.Props.Circuit
import Verif.Props.Reader
/-
  The generated text, read as DIMACS, is the generated formula.
-/
namespace NDP.Gen
open NDP.Spec

/-! ### words -/

theorem splitWS_word_sep {w : Str} (hw : w ≠ []) (h : ∀ c ∈ w, isPySpace c = false) (rest : Str) :
    splitWS (w ++ ' ' :: rest) = w :: splitWS rest := by
  induction w with
  | nil => exact absurd rfl hw
  | cons c w ih =>
    have hc := h c (by simp)
    cases w with
    | nil =>
      show splitWS (c :: ' ' :: rest) = _
      rw [splitWS, if_neg (by simp [hc])]
      rw [if_pos (by decide), splitWS_cons_space (by decide)]
    | cons d w =>
      have ih := ih (by simp) (fun x hx => h x (by simp [hx]))
      have hd := h d (by simp)
      show splitWS (c :: d :: (w ++ ' ' :: rest)) = _
      rw [splitWS, if_neg (by simp [hc])]
      rw [if_neg (by simp [hd])]
      rw [List.cons_append] at ih
      rw [ih]

theorem splitWS_word {w : Str} (hw : w ≠ []) (h : ∀ c ∈ w, isPySpace c = false) : splitWS w = [w] := by
  have h1 := splitWS_word_sep hw h []
  rw [splitWS_append_space w [' '] (by decide)] at h1
  rw [h1]; rfl

theorem splitWS_joinWith {ws : List Str} (h : ∀ w ∈ ws, w ≠ [] ∧ ∀ c ∈ w, isPySpace c = false) :
    splitWS (joinWith [' '] ws) = ws := by
  induction ws with
  | nil => rfl
  | cons w ws ih =>
    have hw := h w (by simp)
    cases ws with
    | nil => exact splitWS_word hw.1 hw.2
    | cons v ws =>
      rw [joinWith, List.append_assoc, List.singleton_append, splitWS_word_sep hw.1 hw.2, ih fun x hx => h x (by simp [hx])]
      simp

theorem joinWith_snoc {ws : List Str} (h : ws ≠ []) (x : Str) : joinWith [' '] ws ++ ' ' :: x = joinWith [' '] (ws ++ [x]) := by
  induction ws with
  | nil => exact absurd rfl h
  | cons w ws ih =>
    cases ws with
    | nil => simp [joinWith]
    | cons v ws =>
      have := ih (by simp)
      rw [joinWith, List.append_assoc, this]
      · rfl
      · simp

/-! ### clause lines -/

theorem showBit_eq {b : Bit} (h : 0 < bvar b) : showBit b = intStr (bitInt b) := by
  cases b with
  | const => simp [bvar] at h
  | var v =>
    have hv : ¬ (v : Int) < 0 := by omega
    show natStr v = intStr (v : Int)
    unfold intStr
    rw [if_neg hv]; rfl
  | nvar v =>
    have hv : 0 < v := h
    have hv : -(v : Int) < 0 := by omega
    show '-' :: natStr v = intStr (-(v : Int))
    unfold intStr
    rw [if_pos hv]; simp

theorem showCl_eq {c : BCl} (hc : c ≠ []) (h : ∀ b ∈ c, 0 < bvar b) :
    showCl c = joinWith [' '] ((c.map bitInt ++ [0]).map intStr) := by
  unfold showCl
  have e : c.map showBit = (c.map bitInt).map intStr := by
    rw [List.map_map]
    apply List.map_congr_left
    intro b hb
    exact showBit_eq (h b hb)
  have z : " 0".toList = ' ' :: intStr 0 := by decide
  rw [e, z, joinWith_snoc (by simpa using hc), List.map_append]
  rfl

theorem first_intStr (i : Int) (rest : Str) : ∃ c s, intStr i ++ rest = c :: s ∧ isPySpace c = false ∧ c ≠ 'c' ∧ c ≠ 'p' := by
  cases h : intStr i with
  | nil => exact absurd h (intStr_ne_nil i)
  | cons c s =>
    have hc : c ∈ intStr i := by rw [h]; simp
    refine ⟨c, s ++ rest, rfl, intStr_no_space i c hc, ?_, ?_⟩
    · rintro rfl; exact not_mem_intStr (by decide) (by decide) hc
    · rintro rfl; exact not_mem_intStr (by decide) (by decide) hc

theorem joinWith_head {ws : List Str} (h : ws ≠ []) : ∃ w rest, w ∈ ws ∧ joinWith [' '] ws = w ++ rest := by
  cases ws with
  | nil => exact absurd rfl h
  | cons w ws =>
    cases ws with
    | nil => exact ⟨w, [], by simp, by simp [joinWith]⟩
    | cons v ws => exact ⟨w, [' '] ++ joinWith [' '] (v :: ws), by simp, by rw [joinWith, List.append_assoc]; simp⟩

theorem line_first {is : List Int} (h : is ≠ []) : ∃ c s, joinWith [' '] (is.map intStr) = c :: s ∧ isPySpace c = false ∧
    c ≠ 'c' ∧ c ≠ 'p' := by
  obtain ⟨w, rest, hw, e⟩ := joinWith_head (ws := is.map intStr) (by simpa using h)
  obtain ⟨i, _, rfl⟩ := List.mem_map.1 hw
  rw [e]
  exact first_intStr i rest

theorem mem_strip {s : Str} {c : Char} (h : c ∈ strip s) : c ∈ s := by
  unfold strip at h
  have h1 := (List.dropWhile_sublist _).subset (List.mem_reverse.1 h)
  exact (List.dropWhile_sublist _).subset (List.mem_reverse.1 h1)

theorem clauseLine_good {is : List Int} (h : is ≠ []) :
    isBlank (joinWith [' '] (is.map intStr)) = false ∧ GoodLine (joinWith [' '] (is.map intStr)) ∧
    isComment (joinWith [' '] (is.map intStr)) = false ∧ isProblem (joinWith [' '] (is.map intStr)) = false := by
  obtain ⟨c, s, e, h1, h2, h3⟩ := line_first h
  have hb : isBlank (joinWith [' '] (is.map intStr)) = false := by
    rw [e]; simp [isBlank, h1]
  have hdrop : (c :: s).dropWhile isPySpace = c :: s := by rw [List.dropWhile_cons_of_neg (by simp [h1])]
  have hc : isComment (joinWith [' '] (is.map intStr)) = false := by
    rw [e]; unfold isComment; rw [hdrop]; simp [startsWith, h2]
  have hp : isProblem (joinWith [' '] (is.map intStr)) = false := by
    rw [e]; unfold isProblem; rw [hdrop]; simp [startsWith, h3]
  refine ⟨hb, Or.inr (Or.inr ⟨hc, hp, ?_⟩), hc, hp⟩
  intro d hd hsp
  rcases mem_joinWith (mem_strip hd) with hd | ⟨w, hw, hd⟩
  · simpa using hd
  · obtain ⟨i, _, rfl⟩ := List.mem_map.1 hw
    rw [intStr_no_space i d hd] at hsp
    simp at hsp

theorem clauseLine_nl (is : List Int) : '\n' ∉ joinWith [' '] (is.map intStr) := by
  intro hd
  rcases mem_joinWith hd with hd | ⟨w, hw, hd⟩
  · revert hd; decide
  · obtain ⟨i, _, rfl⟩ := List.mem_map.1 hw
    have := intStr_no_space i _ hd
    revert this; decide

theorem mapOpt_intStr (is : List Int) : mapOpt parseInt (is.map intStr) = some is := by
  induction is with
  | nil => rfl
  | cons i is ih => rw [List.map_cons, mapOpt, parseInt_intStr, ih]

theorem cutClauses_app (acc c rest : List Int) (h : (0 : Int) ∉ c) :
    cutClauses acc (c ++ 0 :: rest) = (acc ++ c) :: cutClauses [] rest := by
  induction c generalizing acc with
  | nil => simp [cutClauses]
  | cons x c ih =>
    rw [List.cons_append, cutClauses, if_neg (by rintro rfl; simp at h), ih _ (by simp at h; exact h.2)]
    simp

theorem cutClauses_all (F : Cnf) (h : ∀ c ∈ F, (0 : Int) ∉ c) : cutClauses [] (F.flatMap fun c => c ++ [0]) = F := by
  induction F with
  | nil => rfl
  | cons c F ih =>
    rw [List.flatMap_cons, List.append_assoc, List.singleton_append, cutClauses_app _ _ _ (h c (by simp)),
      ih fun c hc => h c (by simp [hc])]
    simp

/-! ### the text -/

theorem splitOn_lines (ls : List Str) (h : ∀ l ∈ ls, '\n' ∉ l) : splitOn '\n' (ls.flatMap fun l => l ++ ['\n']) = ls ++ [[]] := by
  induction ls with
  | nil => rfl
  | cons l ls ih =>
    rw [List.flatMap_cons, List.append_assoc, List.singleton_append, splitOn_append_sep _ _ _ (h l (by simp)),
      ih fun l hl => h l (by simp [hl])]
    rfl

theorem isBlank_cons {c : Char} (h : isPySpace c = false) (s : Str) : isBlank (c :: s) = false := by simp [isBlank, h]

theorem isComment_c (s : Str) : isComment ('c' :: s) = true := by
  unfold isComment
  rw [List.dropWhile_cons_of_neg (by decide)]
  rfl

theorem isProblem_p (s : Str) : isProblem ('p' :: s) = true ∧ isComment ('p' :: s) = false := by
  unfold isProblem isComment
  rw [List.dropWhile_cons_of_neg (by decide)]
  exact ⟨rfl, rfl⟩

/-- A text of comment lines, one problem line and clause lines stands for the formula of its clause lines. -/
theorem text_of_lines {c0 : Str} {cs : List Str} {x y : Nat} {F : Cnf}
    (hc0 : '\n' ∉ c0) (hcs : ∀ l ∈ cs, '\n' ∉ l)
    (hF : ∀ c ∈ F, (0 : Int) ∉ c) :
    let ls := ('c' :: c0) :: (cs.map ('c' :: ·) ++ ("p cnf ".toList ++ natStr x ++ " ".toList ++ natStr y) ::
      F.map fun c => joinWith [' '] ((c ++ [0]).map intStr))
    GoodDimacs (ls.flatMap fun l => l ++ ['\n']) ∧ dimacsFormula (ls.flatMap fun l => l ++ ['\n']) = some F := by
  intro ls
  have hpl : "p cnf ".toList ++ natStr x ++ " ".toList ++ natStr y =
      joinWith [' '] ["p".toList, "cnf".toList, natStr x, natStr y] := by
    simp [joinWith]
  have hwords : splitWS ("p cnf ".toList ++ natStr x ++ " ".toList ++ natStr y) = ["p".toList, "cnf".toList, natStr x, natStr y] := by
    rw [hpl]
    apply splitWS_joinWith
    intro w hw
    simp only [List.mem_cons, List.not_mem_nil, or_false] at hw
    rcases hw with rfl | rfl | rfl | rfl
    · decide
    · decide
    · exact ⟨natStr_ne_nil x, natStr_no_space x⟩
    · exact ⟨natStr_ne_nil y, natStr_no_space y⟩
  have hpp : ∃ s, "p cnf ".toList ++ natStr x ++ " ".toList ++ natStr y = 'p' :: s := ⟨_, rfl⟩
  have hnl : ∀ l ∈ ls, '\n' ∉ l := by
    intro l hl
    rcases List.mem_cons.1 hl with rfl | hl
    · simp [hc0]
    rcases List.mem_append.1 hl with hl | hl
    · obtain ⟨s, hs, rfl⟩ := List.mem_map.1 hl
      simp [hcs s hs]
    rcases List.mem_cons.1 hl with rfl | hl
    · intro h
      have hn : ∀ k, '\n' ∉ natStr k := fun k => not_mem_natStr (by decide)
      rcases List.mem_append.1 h with h | h
      · rcases List.mem_append.1 h with h | h
        · rcases List.mem_append.1 h with h | h
          · revert h; decide
          · exact hn _ h
        · revert h; decide
      · exact hn _ h
    · obtain ⟨c, _, rfl⟩ := List.mem_map.1 hl
      exact clauseLine_nl _
  have hsplit := splitOn_lines ls hnl
  refine ⟨⟨_, _, [[]], hsplit, Or.inl (isComment_c c0), ?_, by simp [isBlank]⟩, ?_⟩
  · intro l hl
    rcases List.mem_append.1 hl with hl | hl
    · obtain ⟨s, hs, rfl⟩ := List.mem_map.1 hl
      exact ⟨isBlank_cons (by decide) s, Or.inl (isComment_c s)⟩
    rcases List.mem_cons.1 hl with rfl | hl
    · obtain ⟨s, hs⟩ := hpp
      refine ⟨by rw [hs]; exact isBlank_cons (by decide) s, Or.inr (Or.inl ⟨by rw [hs]; exact (isProblem_p s).1, ?_⟩)⟩
      rw [hwords]; rfl
    · obtain ⟨c, _, rfl⟩ := List.mem_map.1 hl
      have := clauseLine_good (is := c ++ [0]) (by simp)
      exact ⟨this.1, this.2.1⟩
  · unfold dimacsFormula dimacsTokens
    rw [hsplit]
    have h1 : (cs.map ('c' :: ·)).flatMap (fun l => if isComment l || isProblem l then [] else splitWS l) = [] := by
      rw [List.flatMap_eq_nil_iff]
      intro l hl
      obtain ⟨s, hs, rfl⟩ := List.mem_map.1 hl
      simp [isComment_c]
    have h2 : (F.map fun c => joinWith [' '] ((c ++ [0]).map intStr)).flatMap
        (fun l => if isComment l || isProblem l then [] else splitWS l) = (F.flatMap fun c => c ++ [0]).map intStr := by
      clear hsplit hnl ls hF
      induction F with
      | nil => rfl
      | cons c F ih =>
        have hg := clauseLine_good (is := c ++ [0]) (by simp)
        have hw : splitWS (joinWith [' '] ((c ++ [0]).map intStr)) = (c ++ [0]).map intStr := by
          apply splitWS_joinWith
          intro w hw
          obtain ⟨i, _, rfl⟩ := List.mem_map.1 hw
          exact ⟨intStr_ne_nil i, intStr_no_space i⟩
        rw [List.map_cons, List.flatMap_cons, ih, hg.2.2.1, hg.2.2.2, hw, List.flatMap_cons, List.map_append (l₁ := c ++ [0])]
        rfl
    obtain ⟨s, hs⟩ := hpp
    have htok : (ls ++ [[]]).flatMap (fun l => if isComment l || isProblem l then [] else splitWS l) =
        (F.flatMap fun c => c ++ [0]).map intStr := by
      show (('c' :: c0) :: (cs.map ('c' :: ·) ++ ("p cnf ".toList ++ natStr x ++ " ".toList ++ natStr y) ::
        F.map fun c => joinWith [' '] ((c ++ [0]).map intStr)) ++ [[]]).flatMap _ = _
      rw [List.flatMap_append, List.flatMap_cons, List.flatMap_append, h1, List.flatMap_cons, h2, isComment_c, hs,
        (isProblem_p s).1]
      simp [splitWS]
    rw [htok, mapOpt_intStr, Option.map_some, cutClauses_all F hF]

theorem nl_natStr (n : Nat) : '\n' ∉ natStr n := not_mem_natStr (by decide)

theorem nl_showBit (b : Bit) : '\n' ∉ showBit b := by
  cases b with
  | const b => cases b <;> decide
  | var v => exact nl_natStr v
  | nvar v => simp [showBit, nl_natStr]

theorem nl_showBits (l : List Bit) : '\n' ∉ showBits l := by
  intro h
  unfold showBits at h
  rcases List.mem_append.1 h with h | h
  · rcases List.mem_append.1 h with h | h
    · revert h; decide
    · rcases mem_joinWith h with h | ⟨w, hw, h⟩
      · revert h; decide
      · obtain ⟨b, _, rfl⟩ := List.mem_map.1 hw
        exact nl_showBit b h
  · revert h; decide

theorem nl_append {a b : Str} (ha : '\n' ∉ a) (hb : '\n' ∉ b) : '\n' ∉ a ++ b := by
  intro h
  rcases List.mem_append.1 h with h | h
  · exact ha h
  · exact hb h

/-- The generated text stands for the clauses that were generated. -/
theorem genText_lines {a : AdderName} {m : MultName} {N : Nat} (hN : 1 < N) {r : (List Bit × List Bit) × List Bit} {next : Nat}
    {cls : List BCl} (h : symbolic (multCircuit (m.mult a.adder) (int2bits N)) 1 = some (r, next, cls))
    (hl : ∀ c ∈ cls, ∀ b ∈ c, 0 < bvar b) (hs : ∀ c ∈ cls, c ≠ []) :
    ∃ text, genText a m N = some text ∧ GoodDimacs text ∧ dimacsFormula text = some (cls.map fun c => c.map bitInt) := by
  have e : cls.map showCl = (cls.map fun c => c.map bitInt).map fun c => joinWith [' '] ((c ++ [0]).map intStr) := by
    rw [List.map_map]
    apply List.map_congr_left
    intro c hc
    exact showCl_eq (hs c hc) (hl c hc)
  have hz : ∀ c ∈ cls.map (fun c => c.map bitInt), (0 : Int) ∉ c := by
    intro c hc h0
    obtain ⟨d, hd, rfl⟩ := List.mem_map.1 hc
    obtain ⟨b, hb, e0⟩ := List.mem_map.1 h0
    have := hl d hd b hb
    cases b with
    | const => simp [bvar] at this
    | var v => simp [bitInt] at e0; simp [bvar] at this; omega
    | nvar v => simp [bitInt] at e0; simp [bvar] at this; omega
  have hn : '\n' ∉ m.str ∧ '\n' ∉ a.str := by cases m <;> cases a <;> decide
  have key := text_of_lines (c0 := " Problem generated from ".toList ++ m.str ++ "[".toList ++ a.str ++ "] multiplication circuit".toList)
    (cs := [" by Paul Purdom and Amr Sabry".toList, [], " Circuit for product = ".toList ++ natStr N ++ " ".toList ++
               showBits ((int2bits N).reverse.map Bit.const),
             " Variables for output [msb,...,lsb]: ".toList ++ showBits r.2.reverse,
             " Variables for first input [msb,...,lsb]: ".toList ++ showBits r.1.1.reverse,
             " Variables for second input [msb,...,lsb]: ".toList ++ showBits r.1.2.reverse, [], []])
    (x := next - 1) (y := cls.length) (F := cls.map fun c => c.map bitInt)
    (nl_append (nl_append (nl_append (nl_append (by decide) hn.1) (by decide)) hn.2) (by decide)) (by
      intro l hl
      simp only [List.mem_cons, List.not_mem_nil, or_false] at hl
      rcases hl with rfl | rfl | rfl | rfl | rfl | rfl | rfl | rfl
      · decide
      · decide
      · exact nl_append (nl_append (nl_append (by decide) (nl_natStr N)) (by decide)) (nl_showBits _)
      · exact nl_append (by decide) (nl_showBits _)
      · exact nl_append (by decide) (nl_showBits _)
      · exact nl_append (by decide) (nl_showBits _)
      · decide
      · decide) hz
  refine ⟨_, ?_, key⟩
  unfold genText genLines
  rw [if_pos hN, h]
  simp only [Option.map_some]
  rw [e]
  rfl

end NDP.Gen
