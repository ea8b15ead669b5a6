import Verif.Proofs.Clause
import Verif.Proofs.Unordered
import Verif.Proofs.Rename
import Verif.Lib.Str
import Verif.Lib.Sort
import Verif.Model.Db
/- The serialized body of a set determines its clause list, and reading it back restores it. -/
namespace NDP
open Spec SetObj

theorem clauseStr_ne_nil {c : List Int} (h : c ≠ []) : clauseStr c ≠ [] := by
  unfold clauseStr
  apply joinWith_ne_nil
  match c, h with
  | l :: ls, _ => exact ⟨intStr l, by simp, intStr_ne_nil l⟩

theorem not_mem_clauseStr {c : List Int} {x : Char} (h1 : x ≠ '-') (h2 : digitVal? x = none) (h3 : x ≠ '|') :
    x ∉ clauseStr c := by
  intro hm
  rcases mem_joinWith hm with h | ⟨w, hw, hx⟩
  · simp at h; exact h3 h
  · obtain ⟨l, _, rfl⟩ := List.mem_map.1 hw
    exact not_mem_intStr h1 h2 hx

theorem splitOn_clauseStr {c : List Int} (h : c ≠ []) : splitOn '|' (clauseStr c) = c.map intStr := by
  unfold clauseStr
  apply splitOn_joinWith
  · simpa using h
  · intro w hw
    obtain ⟨l, _, rfl⟩ := List.mem_map.1 hw
    exact not_mem_intStr (by decide) (by decide)

theorem bodyStr_eq {cls : List Clause} (h : ∀ c ∈ cls, c.raw ≠ []) :
    bodyStr cls = joinWith ['&'] ((raws cls).map clauseStr) := by
  unfold bodyStr
  rw [List.filter_eq_self.2, raws, List.map_map]
  · rfl
  · intro c hc
    simpa using List.length_pos_of_ne_nil (h c hc)

theorem splitOn_bodyStr {cls : List Clause} (hn : cls ≠ []) (h : ∀ c ∈ cls, c.raw ≠ []) :
    splitOn '&' (bodyStr cls) = (raws cls).map clauseStr := by
  rw [bodyStr_eq h]
  apply splitOn_joinWith
  · simpa [raws] using hn
  · intro w hw
    obtain ⟨c, _, rfl⟩ := List.mem_map.1 hw
    exact not_mem_clauseStr (by decide) (by decide) (by decide)

theorem map_intStr_inj {a b : List Int} (h : a.map intStr = b.map intStr) : a = b :=
  List.map_injective_iff.2 (fun _ _ e => intStr_injective e) h

theorem clauseStr_inj {a b : List Int} (ha : a ≠ []) (hb : b ≠ []) (h : clauseStr a = clauseStr b) : a = b := by
  apply map_intStr_inj
  rw [← splitOn_clauseStr ha, ← splitOn_clauseStr hb, h]

/-- Two sets have the same body exactly when they have the same clause list. -/
theorem bodyStr_inj {a b : List Clause} (hna : a ≠ []) (hnb : b ≠ []) (ha : ∀ c ∈ a, c.raw ≠ [])
    (hb : ∀ c ∈ b, c.raw ≠ []) (h : bodyStr a = bodyStr b) : raws a = raws b := by
  have e : (raws a).map clauseStr = (raws b).map clauseStr := by
    rw [← splitOn_bodyStr hna ha, ← splitOn_bodyStr hnb hb, h]
  have ha' : ∀ c ∈ raws a, c ≠ [] := by
    intro c hc; obtain ⟨d, hd, rfl⟩ := List.mem_map.1 hc; exact ha d hd
  have hb' : ∀ c ∈ raws b, c ≠ [] := by
    intro c hc; obtain ⟨d, hd, rfl⟩ := List.mem_map.1 hc; exact hb d hd
  clear h hna hnb ha hb
  generalize raws a = A at *
  generalize raws b = B at *
  induction A generalizing B with
  | nil =>
    cases B with
    | nil => rfl
    | cons _ _ => simp at e
  | cons x A ih =>
    cases B with
    | nil => simp at e
    | cons y B =>
      simp only [List.map_cons, List.cons.injEq] at e
      rw [clauseStr_inj (ha' x (by simp)) (hb' y (by simp)) e.1,
        ih (fun c hc => ha' c (by simp [hc])) B (fun c hc => hb' c (by simp [hc])) e.2]

theorem bodyStr_congr {a b : List Clause} (ha : ∀ c ∈ a, c.raw ≠ []) (hb : ∀ c ∈ b, c.raw ≠ [])
    (h : raws a = raws b) : bodyStr a = bodyStr b := by
  rw [bodyStr_eq ha, bodyStr_eq hb, h]

theorem not_mem_bodyStr {cls : List Clause} {x : Char} (h1 : x ≠ '-') (h2 : digitVal? x = none) (h3 : x ≠ '|')
    (h4 : x ≠ '&') : x ∉ bodyStr cls := by
  intro hm
  rcases mem_joinWith hm with h | ⟨w, hw, hx⟩
  · simp at h; exact h4 h
  · obtain ⟨c, _, rfl⟩ := List.mem_map.1 hw
    exact not_mem_clauseStr h1 h2 h3 hx

theorem bodyStr_ne_nil {cls : List Clause} (hn : cls ≠ []) (h : ∀ c ∈ cls, c.raw ≠ []) : bodyStr cls ≠ [] := by
  rw [bodyStr_eq h]
  apply joinWith_ne_nil
  match cls, hn with
  | c :: cs, _ => exact ⟨clauseStr c.raw, by simp [raws], clauseStr_ne_nil (h c (by simp))⟩

/-- A body is never the text of a constant. -/
theorem bodyStr_ne_const {cls : List Clause} : bodyStr cls ≠ ['T'] ∧ bodyStr cls ≠ ['F'] := by
  constructor
  · intro e
    exact not_mem_bodyStr (cls := cls) (x := 'T') (by decide) (by decide) (by decide) (by decide) (by rw [e]; simp)
  · intro e
    exact not_mem_bodyStr (cls := cls) (x := 'F') (by decide) (by decide) (by decide) (by decide) (by rw [e]; simp)

/-- Parsing a body gives back the clause list (each clause without repetitions). -/
theorem parseLine_bodyStr {cls : List Clause} (hn : cls ≠ []) (h : ∀ c ∈ cls, c.raw ≠ []) :
    parseLineClauses (bodyStr cls) = some ((raws cls).map dedup) := by
  unfold parseLineClauses
  simp only
  rw [removeChar_of_not_mem (c := '('), removeChar_of_not_mem (c := ')'), splitOn_bodyStr hn h, mapOpt_map]
  · apply mapOpt_some
    intro c hc
    have hc' : c ≠ [] := by
      obtain ⟨d, hd, rfl⟩ := List.mem_map.1 hc; exact h d hd
    rw [splitOn_clauseStr hc', mapOpt_map, mapOpt_some (g := fun x => x)]
    · simp
    · intro l _; exact parseInt_intStr l
  · exact not_mem_bodyStr (by decide) (by decide) (by decide) (by decide)
  · exact not_mem_bodyStr (by decide) (by decide) (by decide) (by decide)

/-- The clause objects made from a list of ordered clauses, numbered from `i`. -/
def renumber (i : Nat) : Cnf → List Clause
  | [] => []
  | c :: F => { raw := c, initialIndex := i } :: renumber (i + 1) F

@[simp] theorem raws_renumber (i : Nat) (F : Cnf) : raws (renumber i F) = F := by
  induction F generalizing i with
  | nil => rfl
  | cons c F ih => simp [renumber, raws] at ih ⊢; exact ih (i + 1)

theorem addAll_asc {H : Type} (F : Cnf) (h : ∀ c ∈ F, Asc c) (s : SetObj H) (i : Nat) (hv : s.value ≠ some false)
    (hne : F ≠ []) :
    addAll s i F = { s with clauses := s.clauses ++ renumber i F, value := none } := by
  induction F generalizing s i with
  | nil => exact absurd rfl hne
  | cons c F ih =>
    simp only [addAll]
    have hA : s.addClause { Clause.ofList c with initialIndex := i } =
        { s with clauses := s.clauses ++ [{ raw := c, initialIndex := i }], value := none } := by
      rw [Clause.ofList_asc (h c (by simp))]
      unfold addClause
      simp [hv]
    rw [hA]
    by_cases hF : F = []
    · subst hF; simp [addAll, renumber]
    · rw [ih (fun c hc => h c (by simp [hc])) _ _ (by simp) hF]
      simp [renumber]

/-- Reading back the body of a set gives the same clauses, renumbered. -/
theorem ofLine_bodyStr {H : Type} {cls : List Clause} (hn : cls ≠ []) (h : ∀ c ∈ cls, c.raw ≠ [])
    (ha : ∀ c ∈ cls, Asc c.raw) :
    (SetObj.ofLine (bodyStr cls) : SetObj H) = { clauses := renumber 1 (raws cls) } := by
  unfold SetObj.ofLine
  have h1 : (bodyStr cls).isEmpty = false := by
    simpa using bodyStr_ne_nil hn h
  have h2 : (raws cls).map dedup = raws cls := by
    conv_rhs => rw [← List.map_id (raws cls)]
    apply List.map_congr_left
    intro c hc
    obtain ⟨d, hd, rfl⟩ := List.mem_map.1 hc
    apply dedup_of_nodup
    exact List.Nodup.of_map _ (ha d hd).nodup
  rw [h1, parseLine_bodyStr hn h, h2]
  simp only [Bool.false_eq_true, if_false]
  rw [addAll_asc _ _ _ _ (by simp) (by simpa [raws] using hn)]
  · simp
  · intro c hc
    obtain ⟨d, hd, rfl⟩ := List.mem_map.1 hc
    exact ha d hd

/-! ### properties string -/

theorem joinWith_map_no {sep : Str} {α : Type} {f : α → Str} {l : List α} {x : Char} (hs : x ∉ sep)
    (h : ∀ a ∈ l, x ∉ f a) : x ∉ joinWith sep (l.map f) := by
  intro hm
  rcases mem_joinWith hm with h' | ⟨w, hw, hx⟩
  · exact hs h'
  · obtain ⟨a, ha, rfl⟩ := List.mem_map.1 hw
    exact h a ha hx

theorem not_mem_serDict {d : Dict Nat Nat} {x : Char} (h2 : digitVal? x = none)
    (h3 : x ∉ ['{', '}', ',', ' ', ':']) : x ∉ serDict d := by
  simp at h3
  unfold serDict
  intro hm
  simp only [List.mem_append, List.mem_singleton] at hm
  rcases hm with (e | hm) | e
  · exact h3.1 e
  · revert hm
    apply joinWith_map_no
    · simp [h3]
    · intro p _ hp
      simp only [List.mem_append, List.mem_cons, List.not_mem_nil, or_false] at hp
      rcases hp with (hp | hp | hp) | hp
      · exact not_mem_natStr h2 hp
      · exact h3.2.2.2.2 hp
      · exact h3.2.2.2.1 hp
      · exact not_mem_natStr h2 hp
  · exact h3.2.1 e

theorem not_mem_serList {l : List Nat} {x : Char} (h2 : digitVal? x = none)
    (h3 : x ∉ ['[', ']', ',', ' ']) : x ∉ serList l := by
  simp at h3
  unfold serList
  intro hm
  simp only [List.mem_append, List.mem_singleton] at hm
  rcases hm with (e | hm) | e
  · exact h3.1 e
  · revert hm
    apply joinWith_map_no
    · simp [h3]
    · intro p _ hp
      exact not_mem_natStr h2 hp
  · exact h3.2.1 e

theorem unbracket_wrap (o c : Char) (s : Str) : unbracket o c ([o] ++ s ++ [c]) = some s := by
  simp [unbracket]

theorem litList_serList (l : List Nat) : litList (serList l) = some l := by
  unfold litList serList
  rw [unbracket_wrap]
  cases l with
  | nil => simp [joinWith]
  | cons a l =>
    have hne : (joinWith [',', ' '] ((a :: l).map natStr)).isEmpty = false := by
      have := joinWith_ne_nil (sep := [',', ' ']) (ws := (a :: l).map natStr)
        ⟨natStr a, by simp, natStr_ne_nil a⟩
      simpa using this
    simp only [hne, Bool.false_eq_true, if_false]
    rw [List.map_cons, splitOn_joinWith_space ',' (by decide)]
    · simp only [List.map_map]
      have : mapOpt (fun w => Option.map Int.toNat (parseInt w)) (l.map ((fun x => ' ' :: x) ∘ natStr)) = some l := by
        rw [mapOpt_map, mapOpt_some (g := fun x => x)]
        · simp
        · intro n _; simp [parseInt_space_natStr]
      simp [mapOpt, parseInt_natStr, this]
    · intro x hx
      rw [← List.map_cons] at hx
      obtain ⟨n, _, rfl⟩ := List.mem_map.1 hx
      exact not_mem_natStr (by decide)

theorem litEntry_ok (k v : Nat) : litEntry (natStr k ++ [':', ' '] ++ natStr v) = some (k, v) ∧
    litEntry (' ' :: (natStr k ++ [':', ' '] ++ natStr v)) = some (k, v) := by
  have e : ∀ w : Str, ':' ∉ w → splitOn ':' (w ++ [':', ' '] ++ natStr v) = [w, ' ' :: natStr v] := by
    intro w hw
    have : w ++ [':', ' '] ++ natStr v = w ++ ':' :: (' ' :: natStr v) := by simp
    rw [this, splitOn_append_sep _ _ _ hw, splitOn_no_sep]
    simp; exact not_mem_natStr (by decide)
  constructor
  · unfold litEntry
    rw [e _ (not_mem_natStr (by decide))]
    simp [parseInt_natStr, parseInt_space_natStr]
  · unfold litEntry
    have := e (' ' :: natStr k) (by simp; exact not_mem_natStr (by decide))
    rw [← List.cons_append, ← List.cons_append, this]
    simp [parseInt_space_natStr]

theorem foldl_set_nodup {κ β : Type} [DecidableEq κ] (l : List (κ × β)) (d : Dict κ β)
    (h : (Dict.keys (d ++ l)).Nodup) : l.foldl (fun d p => Dict.set d p.1 p.2) d = d ++ l := by
  induction l generalizing d with
  | nil => simp
  | cons p l ih =>
    rw [List.foldl_cons]
    have hp : p.1 ∉ d.keys := by
      intro hm
      simp only [Dict.keys, List.map_append, List.map_cons] at h hm
      rw [List.nodup_append] at h
      exact h.2.2 p.1 hm p.1 (by simp) rfl
    rw [Dict.set_of_not_mem _ _ _ hp, ih]
    · simp
    · simpa [Dict.keys] using h

theorem litDict_serDict (d : Dict Nat Nat) (h : d.keys.Nodup) : litDict (serDict d) = some d := by
  unfold litDict serDict
  rw [unbracket_wrap]
  cases d with
  | nil => simp [joinWith]
  | cons a l =>
    have hne : (joinWith [',', ' '] ((a :: l).map fun p => natStr p.1 ++ [':', ' '] ++ natStr p.2)).isEmpty = false := by
      have := joinWith_ne_nil (sep := [',', ' ']) (ws := (a :: l).map fun p => natStr p.1 ++ [':', ' '] ++ natStr p.2)
        ⟨natStr a.1 ++ [':', ' '] ++ natStr a.2, by simp, by simp⟩
      simpa using this
    simp only [hne, Bool.false_eq_true, if_false]
    rw [List.map_cons, splitOn_joinWith_space ',' (by decide)]
    · simp only [List.map_map]
      have : mapOpt litEntry (l.map ((fun x => ' ' :: x) ∘ fun p => natStr p.1 ++ [':', ' '] ++ natStr p.2)) = some l := by
        rw [mapOpt_map, mapOpt_some (g := fun x => x)]
        · simp
        · intro p _; exact (litEntry_ok p.1 p.2).2
      simp only [mapOpt, (litEntry_ok a.1 a.2).1, this, Option.map_some]
      have := foldl_set_nodup (a :: l) [] (by simpa using h)
      simpa using this
    · intro x hx
      have hx : x ∈ (a :: l).map fun p => natStr p.1 ++ [':', ' '] ++ natStr p.2 := by
        rw [List.map_cons]; exact hx
      obtain ⟨p, _, rfl⟩ := List.mem_map.1 hx
      intro hm
      simp only [List.mem_append, List.mem_cons, List.not_mem_nil, or_false] at hm
      rcases hm with (hm | hm | hm) | hm
      · exact not_mem_natStr (by decide) hm
      · revert hm; decide
      · revert hm; decide
      · exact not_mem_natStr (by decide) hm

/-- The partial assignment as it comes back from its string form: true names first. -/
def trueFirst (d : Dict Int Bool) : Dict Int Bool := d.filter (fun p => p.2) ++ d.filter (fun p => !p.2)

theorem nodup_keys_trueFirst {d : Dict Int Bool} (h : d.keys.Nodup) : (trueFirst d).keys.Nodup := by
  have hp : (trueFirst d).Perm d := List.filter_append_perm _ d
  exact ((hp.map Prod.fst).nodup_iff).2 h

theorem get?_trueFirst {d : Dict Int Bool} (h : d.keys.Nodup) (k : Int) : (trueFirst d).get? k = d.get? k := by
  have hp : (trueFirst d).Perm d := List.filter_append_perm _ d
  have key : ∀ v, (trueFirst d).get? k = some v ↔ d.get? k = some v := by
    intro v
    rw [← Dict.mem_iff_get? (nodup_keys_trueFirst h), ← Dict.mem_iff_get? h]
    exact hp.mem_iff
  exact Option.ext key

theorem trueFirst_idem (d : Dict Int Bool) : trueFirst (trueFirst d) = trueFirst d := by
  unfold trueFirst
  simp [List.filter_append, List.filter_filter]

theorem parseNames_ok (flag : Bool) (ks : List Int) (d : Dict Int Bool)
    (h : (Dict.keys (d ++ ks.map fun k => (k, flag))).Nodup) :
    parseNames flag (joinWith [','] (ks.map intStr)) d = pure (d ++ ks.map fun k => (k, flag)) := by
  unfold parseNames
  cases ks with
  | nil => simp [joinWith]
  | cons k ks =>
    have hne : (joinWith [','] ((k :: ks).map intStr)).isEmpty = false := by
      have := joinWith_ne_nil (sep := [',']) (ws := (k :: ks).map intStr)
        ⟨intStr k, by simp, intStr_ne_nil k⟩
      simpa using this
    simp only [hne, Bool.false_eq_true, if_false]
    rw [splitOn_joinWith ',' _ (by simp), mapOpt_map, mapOpt_some (g := fun x => x)]
    · simp only [List.map_id']
      have e := foldl_set_nodup ((k :: ks).map fun k => (k, flag)) d h
      rw [List.foldl_map] at e
      rw [e]
    · intro l _; exact parseInt_intStr l
    · intro w hw
      obtain ⟨l, _, rfl⟩ := List.mem_map.1 hw
      exact not_mem_intStr (by decide) (by decide)

theorem not_mem_intStr_nonneg {k : Int} (h : 0 ≤ k) : '-' ∉ intStr k := by
  unfold intStr
  rw [if_neg (by omega)]
  exact not_mem_natStr (by decide)

/-- Names and partial assignment survive the trip through their string form. -/
theorem properties_roundtrip {H : Type} (s t : SetObj H) (h1 : s.evaluatedVars.keys.Nodup)
    (h2 : ∀ k ∈ s.evaluatedVars.keys, 0 ≤ k) (h3 : s.originalValues.keys.Nodup) :
    t.deserializeProperties s.serializeProperties = pure { t with
      evaluatedVars := trueFirst s.evaluatedVars, originalValues := s.originalValues,
      finalNamesMap := s.finalNamesMap } := by
  have hd : ∀ f : Int × Bool → Bool, ∀ x, x ≠ ',' → digitVal? x = none → (x = '-' ∨ x ≠ '-') →
      x ∉ joinWith [','] ((s.evaluatedVars.filter f).map fun p => intStr p.1) := by
    intro f x hx hx2 _
    apply joinWith_map_no (by simpa using hx)
    intro p hp
    have hk : 0 ≤ p.1 := h2 _ (List.mem_map.2 ⟨p, (List.mem_filter.1 hp).1, rfl⟩)
    by_cases e : x = '-'
    · subst e; exact not_mem_intStr_nonneg hk
    · exact not_mem_intStr e hx2
  unfold deserializeProperties serializeProperties serEvaluated
  generalize hT : joinWith [','] ((s.evaluatedVars.filter fun p => p.2).map fun p => intStr p.1) = T
  generalize hF : joinWith [','] ((s.evaluatedVars.filter fun p => !p.2).map fun p => intStr p.1) = F
  have hsplit : splitOn '|' (T ++ ['-'] ++ F ++ ['|'] ++ serDict s.originalValues ++ ['|'] ++ serList s.finalNamesMap)
      = [T ++ ['-'] ++ F, serDict s.originalValues, serList s.finalNamesMap] := by
    have e : T ++ ['-'] ++ F ++ ['|'] ++ serDict s.originalValues ++ ['|'] ++ serList s.finalNamesMap =
        (T ++ ['-'] ++ F) ++ '|' :: (serDict s.originalValues ++ '|' :: serList s.finalNamesMap) := by simp
    rw [e, splitOn_append_sep, splitOn_append_sep, splitOn_no_sep]
    · exact not_mem_serList (by decide) (by decide)
    · exact not_mem_serDict (by decide) (by decide)
    · simp only [List.mem_append, List.mem_singleton]
      rintro ((h | h) | h)
      · rw [← hT] at h; exact hd _ '|' (by decide) (by decide) (Or.inr (by decide)) h
      · revert h; decide
      · rw [← hF] at h; exact hd _ '|' (by decide) (by decide) (Or.inr (by decide)) h
  rw [hsplit]
  have hsplit2 : splitOn '-' (T ++ ['-'] ++ F) = [T, F] := by
    have e : T ++ ['-'] ++ F = T ++ '-' :: F := by simp
    rw [e, splitOn_append_sep, splitOn_no_sep]
    · rw [← hF]; exact hd _ '-' (by decide) (by decide) (Or.inl rfl)
    · rw [← hT]; exact hd _ '-' (by decide) (by decide) (Or.inl rfl)
  have hne : (T ++ ['-'] ++ F).isEmpty = false := by simp
  have hne2 : (serDict s.originalValues).isEmpty = false := by simp [serDict]
  have hne3 : (serList s.finalNamesMap).isEmpty = false := by simp [serList]
  simp only [hne, hne2, hne3, hsplit2, Bool.false_eq_true, if_false, litDict_serDict _ h3, litList_serList]
  have et : (s.evaluatedVars.filter fun p => p.2) =
      ((s.evaluatedVars.filter fun p => p.2).map Prod.fst).map fun k => (k, true) := by
    rw [List.map_map]
    conv_lhs => rw [← List.map_id (s.evaluatedVars.filter fun p => p.2)]
    apply List.map_congr_left
    rintro ⟨k, b⟩ hp
    have := (List.mem_filter.1 hp).2
    simp at this; simp [this]
  have ef : (s.evaluatedVars.filter fun p => !p.2) =
      ((s.evaluatedVars.filter fun p => !p.2).map Prod.fst).map fun k => (k, false) := by
    rw [List.map_map]
    conv_lhs => rw [← List.map_id (s.evaluatedVars.filter fun p => !p.2)]
    apply List.map_congr_left
    rintro ⟨k, b⟩ hp
    have := (List.mem_filter.1 hp).2
    simp at this; simp [this]
  have hnd := nodup_keys_trueFirst h1
  unfold trueFirst at hnd ⊢
  rw [et, ef] at hnd
  have hp1 : parseNames true T [] = pure ((s.evaluatedVars.filter fun p => p.2)) := by
    rw [← hT]
    have e0 : (s.evaluatedVars.filter fun p => p.2).map (fun p => intStr p.1) =
        ((s.evaluatedVars.filter fun p => p.2).map Prod.fst).map intStr := by rw [List.map_map]; rfl
    rw [e0, parseNames_ok]
    · rw [← et]; rfl
    · rw [Dict.keys, List.map_append] at hnd
      simpa [Dict.keys] using (List.nodup_append.1 hnd).1
  have hp2 : parseNames false F (s.evaluatedVars.filter fun p => p.2) =
      pure ((s.evaluatedVars.filter fun p => p.2) ++ (s.evaluatedVars.filter fun p => !p.2)) := by
    rw [← hF]
    have e0 : (s.evaluatedVars.filter fun p => !p.2).map (fun p => intStr p.1) =
        ((s.evaluatedVars.filter fun p => !p.2).map Prod.fst).map intStr := by rw [List.map_map]; rfl
    rw [e0, parseNames_ok]
    · rw [← ef]
    · rw [← et] at hnd; exact hnd
  rw [hp1]
  simp only [M.pure_bind]
  rw [hp2]
  simp

end NDP
