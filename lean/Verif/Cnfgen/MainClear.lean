import Verif.Cnfgen.ToolLineTrans
/-
  C96: which words are the beginning of two general options of cnfgen.
-/
namespace NDP.Cnfgen
open NDP

/-- The names of the general options (`cnfgen --help`). -/
def GeneralName (n : Str) : MOpt → Prop
  | .help => n = "-h".toList ∨ n = "--help".toList
  | .version => n = "-V".toList ∨ n = "--version".toList
  | .output => n = "-o".toList ∨ n = "--output".toList
  | .format => n = "-of".toList ∨ n = "--output-format".toList
  | .seed => n = "-S".toList ∨ n = "--seed".toList
  | .verbose => n = "-v".toList ∨ n = "--verbose".toList
  | .quiet => n = "-q".toList ∨ n = "--quiet".toList

/-- The table without `-of`, the only name with one dash and two letters. -/
def shortMain : List (Str × MOpt) := mainOptions.filter fun o => decide (o.1 ≠ "-of".toList)

def ShortName (n : Str) (o : MOpt) : Prop := (n, o) ∈ shortMain

theorem short_tidy : Tidy shortMain ShortName := ⟨fun _ _ => Iff.rfl, tidy_shape (by decide +kernel), by decide +kernel⟩

theorem general_mem (n : Str) (o : MOpt) : GeneralName n o ↔ (n, o) ∈ mainOptions := by
  cases o <;> simp [GeneralName, mainOptions] <;> exact or_comm

theorem short_mem (n : Str) (o : MOpt) : ShortName n o ↔ GeneralName n o ∧ n ≠ "-of".toList := by
  rw [general_mem]
  unfold ShortName shortMain
  rw [List.mem_filter]
  simp

theorem lookup_short {s : Str} (h : s ≠ "-of".toList) : optLookup mainOptions s = optLookup shortMain s := by
  unfold optLookup shortMain
  rw [List.find?_filter]
  congr 2
  funext o
  by_cases e : o.1 = s
  · simp only [e, ne_eq, h, not_false_eq_true, decide_true, and_self]
  · simp [e]

theorem long_same {t : Str} : classify mainOptions ('-' :: '-' :: t) = classify shortMain ('-' :: '-' :: t) := by
  have h1 : '-' :: '-' :: t ≠ "-of".toList := by simp
  have h2 : beforeEq ('-' :: '-' :: t) ≠ "-of".toList := by simp [beforeEq]
  have h3 : optCandidates mainOptions ('-' :: '-' :: t) = optCandidates shortMain ('-' :: '-' :: t) := by
    unfold optCandidates shortMain
    rw [List.filterMap_filter]
    refine List.filterMap_congr fun o _ => ?_
    by_cases e : o.1 = "-of".toList
    · simp [e, beforeEq]
    · simp
      exact fun h => absurd h e
  unfold classify
  rw [lookup_short h1, lookup_short h2, h3]

theorem short_clear {c : Char} (hc : c ≠ '-') (t : Str) : Clear ('-' :: c :: t) := by
  have hlen : optLookup mainOptions ('-' :: c :: t) = none → (optCandidates mainOptions ('-' :: c :: t)).length ≤ 1 := by
    intro hl
    have hto : c = 'o' → t ≠ [] ∧ t ≠ ['f'] := by
      rintro rfl
      constructor <;> rintro rfl <;> revert hl <;> decide
    have hpre : ('-' :: c :: t).isPrefixOf "-of".toList = false := by
      rw [Bool.eq_false_iff]
      intro hp
      have hp := List.isPrefixOf_iff_prefix.1 hp
      obtain ⟨u, hu⟩ := hp
      have hu : '-' :: c :: (t ++ u) = ['-', 'o', 'f'] := hu
      simp only [List.cons.injEq, true_and] at hu
      obtain ⟨rfl, hu⟩ := hu
      obtain ⟨h1, h2⟩ := hto rfl
      match t, u, hu with
      | [], _, _ => exact h1 rfl
      | [x], u, hu => simp at hu; exact h2 (by rw [hu.1])
      | _ :: _ :: _, _, hu => simp at hu
    have hcand : optCandidates mainOptions ('-' :: c :: t) = (mainOptions.filter fun o => decide (o.1 = ['-', c])).map fun o => .opt o.2 false (some t) := by
      have hno : ∀ o ∈ mainOptions, o.1 ≠ ['-', c] → ('-' :: c :: t).isPrefixOf o.1 = false := by
        intro o ho hne
        simp only [mainOptions, List.mem_cons, List.not_mem_nil, or_false] at ho
        rw [Bool.eq_false_iff]
        intro hp
        obtain ⟨u, hu⟩ := List.isPrefixOf_iff_prefix.1 hp
        rcases ho with rfl | rfl | rfl | rfl | rfl | rfl | rfl | rfl | rfl | rfl | rfl | rfl | rfl | rfl
        case inr.inr.inr.inr.inr.inr.inr.inl => rw [hpre] at hp; cases hp
        all_goals
          simp at hu hne
          first
            | exact hc hu.1
            | exact hne hu.1.symm
            | (obtain ⟨h1, h2⟩ := hu; simp_all)
      unfold optCandidates
      split
      · rename_i e; simp only [List.cons.injEq, true_and] at e; exact absurd e.1 hc
      · rename_i e
        simp only [List.cons.injEq, true_and] at e
        obtain ⟨rfl, rfl⟩ := e
        clear hl hto hpre
        generalize mainOptions = l at hno
        induction l with
        | nil => rfl
        | cons o l ih =>
          have ih := ih fun x hx => hno x (List.mem_cons_of_mem _ hx)
          by_cases e : o.1 = ['-', c]
          · rw [List.filter_cons_of_pos (by simpa using e), List.map_cons, ← ih]
            simp only [List.filterMap_cons, if_pos e]
          · rw [List.filter_cons_of_neg (by simpa using e), ← ih]
            simp only [List.filterMap_cons, if_neg e, hno o List.mem_cons_self e, Bool.false_eq_true, if_false]
      · rename_i e1 e2
        first
          | exact (e1 _ rfl).elim
          | exact (e2 _ rfl).elim
          | exact (e1 _ _ rfl).elim
          | exact (e2 _ _ rfl).elim
    rw [hcand, List.length_map]
    have hnd : ((mainOptions.filter fun o => decide (o.1 = ['-', c])).map (·.1)).Nodup := (List.filter_sublist.map _).nodup (by decide +kernel)
    have hall : ∀ o ∈ mainOptions.filter fun o => decide (o.1 = ['-', c]), o.1 = ['-', c] := fun o ho => by simpa using (List.mem_filter.1 ho).2
    generalize (mainOptions.filter fun o => decide (o.1 = ['-', c])) = l at hnd hall
    match l, hnd, hall with
    | [], _, _ => simp
    | [_], _, _ => simp
    | a :: b :: _, hnd, hall =>
      have := hall a (by simp)
      have := hall b (by simp)
      simp_all
  unfold Clear classify
  simp only [ne_eq, not_true_eq_false, if_false]
  cases hl : optLookup mainOptions ('-' :: c :: t) with
  | some a => simp
  | none =>
    have := hlen hl
    simp only [reduceCtorEq, if_false]
    split
    · simp
    · generalize hcs : optCandidates mainOptions ('-' :: c :: t) = cs at this
      match cs, this with
      | [], _ =>
        show (if negLike ('-' :: c :: t) then Word.arg else if ' ' ∈ '-' :: c :: t then Word.arg else Word.unknown) ≠ (Word.ambiguous : Word MOpt)
        split
        · simp
        · split <;> simp
      | [w], _ =>
        intro e
        simp only at e
        subst e
        have : Word.ambiguous ∈ optCandidates mainOptions ('-' :: c :: t) := by rw [hcs]; simp
        unfold optCandidates at this
        split at this
        · obtain ⟨o, _, ho⟩ := List.mem_filterMap.1 this
          split at ho <;> simp at ho
        · obtain ⟨o, _, ho⟩ := List.mem_filterMap.1 this
          split at ho
          · simp at ho
          · split at ho <;> simp at ho
        · simp at this

/-- **C96** `Clear` means: not the beginning of two of the general options. -/
theorem clear_iff (w : Str) : Clear w ↔ ¬ TwoNames GeneralName w := by
  have hshort : ∀ {b n : Str} {a : MOpt}, "--".toList <+: b → b <+: n → (GeneralName n a ↔ ShortName n a) := by
    intro b n a hb hn
    rw [short_mem]
    refine ⟨fun h => ⟨h, ?_⟩, fun h => h.1⟩
    rintro rfl
    exact absurd (hb.trans hn) (by decide)
  have hTN : TwoNames GeneralName w ↔ TwoNames ShortName w := by
    unfold TwoNames
    constructor
    · rintro ⟨b, hb, hw, hno, n, m, a, a', h1, h2, hne, h3, h4⟩
      exact ⟨b, hb, hw, fun a h => hno a ((hshort hb List.prefix_rfl).2 h), n, m, a, a', (hshort hb h3).1 h1, (hshort hb h4).1 h2, hne, h3, h4⟩
    · rintro ⟨b, hb, hw, hno, n, m, a, a', h1, h2, hne, h3, h4⟩
      exact ⟨b, hb, hw, fun a h => hno a ((hshort hb List.prefix_rfl).1 h), n, m, a, a', (hshort hb h3).2 h1, (hshort hb h4).2 h2, hne, h3, h4⟩
  rw [hTN]
  by_cases hl : ∃ t, w = '-' :: '-' :: t
  · obtain ⟨t, rfl⟩ := hl
    unfold Clear
    rw [long_same, ← short_tidy.two_iff]
  · constructor
    · rintro _ ⟨b, hb, hw, _⟩
      refine hl ?_
      obtain ⟨u, rfl⟩ := hb
      rcases hw with rfl | ⟨u', rfl⟩
      · exact ⟨u, rfl⟩
      · exact ⟨u ++ '=' :: u', rfl⟩
    · intro _
      match w with
      | [] => unfold Clear; simp [classify]
      | [c] =>
        by_cases h : c = '-'
        · subst h; unfold Clear; decide +kernel
        · unfold Clear; simp [classify, h]
      | d :: c :: t =>
        by_cases h : d = '-'
        · subst h
          exact short_clear (fun e => hl ⟨t, by rw [e]⟩) t
        · unfold Clear; simp [classify, h]

end NDP.Cnfgen
