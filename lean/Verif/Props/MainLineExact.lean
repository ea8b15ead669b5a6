import Verif.Props.MainLine
/-
  C101: exactly the command lines of `main.py` that are accepted.
-/
namespace NDP
open Cnfgen

/-! ### specification -/

/-- A negative number as the parser recognizes it: `-12`, `-1.5`, `-.5`. -/
def NegNumber (v : Str) : Prop :=
  ∃ a b : Str, (∀ c ∈ a ++ b, (digitVal? c).isSome = true) ∧ ((v = '-' :: a ∧ b = [] ∧ a ≠ []) ∨ (v = '-' :: a ++ '.' :: b ∧ b ≠ []))

/-- A word the parser connects with an option: it begins a name, is a name followed by `=`, begins a long name up to its first `=`, or begins with a one-letter option. -/
def Touches (v : Str) : Prop :=
  ∃ o : SOpt, ∃ n ∈ o.names, v <+: n ∨ (n ++ ['=']) <+: v ∨ ("--".toList <+: v ∧ ∃ b u, v = b ++ '=' :: u ∧ '=' ∉ b ∧ b <+: n) ∨ (n.length = 2 ∧ n <+: v)

/-- A word that can be the value of an option: it does not begin with a dash, is a dash alone, or is connected with no option and is a negative number or contains a space. -/
def IsValueWord (v : Str) : Prop := v.head? ≠ some '-' ∨ v = "-".toList ∨ (¬ Touches v ∧ (NegNumber v ∨ ' ' ∈ v))

/-- One-letter options written together: flags, and in the end any option, or an option directly followed by its value. -/
inductive Letters : List Char → List (SOpt × Option Str) → Prop
  | last {o : SOpt} {c : Char} : ['-', c] ∈ o.names → Letters [c] [(o, none)]
  | flag {o : SOpt} {c d : Char} {cs : List Char} {es : List (SOpt × Option Str)} : ['-', c] ∈ o.names → o.values = 0 → Letters (d :: cs) es → Letters (c :: d :: cs) ((o, none) :: es)
  | value {o : SOpt} {c d : Char} {v : Str} : ['-', c] ∈ o.names → o.values = 1 → Letters (c :: d :: v) [(o, some (d :: v))]

/-- The options in one word, with the values given in the word itself. -/
inductive WordMeans : Str → List (SOpt × Option Str) → Prop
  /-- `--threads`, `-t`, `--thr` -/
  | name {o : SOpt} {w : Str} : Spells o w → WordMeans w [(o, none)]
  /-- `--threads=4`, `--thr=4`, `-t=4` -/
  | equals {o : SOpt} {n v : Str} : Spells o n → (n ∈ o.names ∨ "--".toList <+: n) → o.values = 1 → WordMeans (n ++ '=' :: v) [(o, some v)]
  /-- `-t4`, `-sez`, `-szt4`, unless it is (the beginning of) a name or a name followed by `=` -/
  | letters {c d : Char} {cs : List Char} {es : List (SOpt × Option Str)} : Letters (c :: d :: cs) es →
      (∀ o' : SOpt, ∀ n ∈ o'.names, ¬ ('-' :: c :: d :: cs) <+: n ∧ ¬ (n ++ ['=']) <+: ('-' :: c :: d :: cs)) → WordMeans ('-' :: c :: d :: cs) es
  /-- A slip of `argparse`: `-v=se` for `-v -s -e`, `-verify=s` for `-verify -s`. -/
  | slip {o : SOpt} {n : Str} {cs : List Char} {es : List (SOpt × Option Str)} : n ∈ o.names → ¬ "--".toList <+: n → o.values = 0 → Letters cs es →
      WordMeans (n ++ '=' :: cs) ((o, none) :: es)

/-- The options of one word with the values `vs` of the last one, which are the next words, unless its value is in the word. -/
def withValues (es : List (SOpt × Option Str)) (vs : List Str) : List (SOpt × List Str) :=
  es.dropLast.map (fun e => (e.1, [])) ++ (es.getLast?.map fun e => (e.1, match e.2 with | some v => [v] | none => vs)).toList

/-- The command line `ws` gives the options `is`. -/
inductive Reads : List Str → List (SOpt × List Str) → Prop
  | nil : Reads [] []
  | cons {w : Str} {vs ws : List Str} {es : List (SOpt × Option Str)} {is : List (SOpt × List Str)} : WordMeans w es →
      (∀ e, es.getLast? = some e → vs.length = match e.2 with | some _ => 0 | none => e.1.values) → (∀ v ∈ vs, IsValueWord v) → Reads ws is →
      Reads (w :: vs ++ ws) (withValues es vs ++ is)

/-! ### values -/

theorem negLike_iff (v : Str) : negLike v = true ↔ NegNumber v := by
  have hd : (digitVal? '.').isSome = false := by decide
  unfold NegNumber
  constructor
  · intro h
    unfold negLike at h
    split at h
    · rename_i t
      have hsplit := List.takeWhile_append_dropWhile (p := fun c => (digitVal? c).isSome) (l := t)
      split at h
      · rename_i hn
        refine ⟨t, [], ?_, .inl ⟨rfl, rfl, by simpa using h⟩⟩
        intro c hc
        rw [List.append_nil] at hc
        exact dropWhile_nil hn c hc
      · rename_i f hf
        rw [Bool.and_eq_true] at h
        rw [hf] at hsplit
        refine ⟨t.takeWhile fun c => (digitVal? c).isSome, f, ?_, .inr ⟨by rw [List.cons_append, hsplit], by simpa using h.1⟩⟩
        intro c hc
        rcases List.mem_append.1 hc with hc | hc
        · exact takeWhile_mem (p := fun c => (digitVal? c).isSome) hc
        · exact List.all_eq_true.1 h.2 c hc
      · simp at h
    · simp at h
  · rintro ⟨a, b, hall, ⟨rfl, rfl, ha⟩ | ⟨rfl, hb⟩⟩
    · have : a.dropWhile (fun c => (digitVal? c).isSome) = [] := dropWhile_every fun c hc => hall c (by simp [hc])
      simp only [negLike, this]
      simpa using ha
    · have : (a ++ '.' :: b).dropWhile (fun c => (digitVal? c).isSome) = '.' :: b := by
        rw [List.dropWhile_append_of_pos fun c hc => hall c (by simp [hc]), List.dropWhile_cons_of_neg (by rw [hd]; simp)]
      simp only [List.cons_append, negLike, this, Bool.and_eq_true, decide_eq_true_eq, List.all_eq_true]
      exact ⟨hb, fun c hc => hall c (by simp [hc])⟩

theorem prefix_beforeEq {w n : Str} (hb : beforeEq w <+: n) : w <+: n ∨ ∃ u, w = beforeEq w ++ '=' :: u := by
  by_cases hq : '=' ∈ w
  · exact .inr (eq_split hq)
  · left
    have : beforeEq w = w := takeWhile_every fun c hc => by
      simp only [ne_eq, decide_not, Bool.not_eq_eq_eq_not, Bool.not_true, decide_eq_false_iff_not]
      exact fun e => hq (e ▸ hc)
    rwa [this] at hb

theorem beforeEq_no (w : Str) : '=' ∉ beforeEq w := fun h => by
  have := takeWhile_mem h
  simp at this

theorem noeq (o : SOpt) {n : Str} (hn : n ∈ o.names) : '=' ∉ n := (names_classify o (all_mem o) n hn).2.1

theorem short_take {n : Str} {c : Char} {t : Str} : n.length = 2 ∧ n <+: ('-' :: c :: t) ↔ n = ['-', c] := by
  constructor
  · rintro ⟨h1, r, hr⟩
    obtain ⟨a, b, rfl⟩ := List.length_eq_two.1 h1
    simp only [List.cons_append, List.nil_append, List.cons.injEq] at hr
    rw [hr.1, hr.2.1]
  · rintro rfl
    exact ⟨rfl, t, rfl⟩

/-- The words connected with no option. -/
theorem untouched {t : Str} (h : t ≠ []) : ¬ Touches ('-' :: t) ↔ optLookup solverOptions ('-' :: t) = none ∧
    ((afterEq ('-' :: t)).bind fun _ => optLookup solverOptions (beforeEq ('-' :: t))) = none ∧ optCandidates solverOptions ('-' :: t) = [] := by
  have hcand : optCandidates solverOptions ('-' :: t) = [] ↔
      ((∃ u, t = '-' :: u) → ∀ o : SOpt, ∀ n ∈ o.names, ¬ beforeEq ('-' :: t) <+: n) ∧
      ((¬ ∃ u, t = '-' :: u) → ∀ o : SOpt, ∀ n ∈ o.names, ¬ ('-' :: t) <+: n ∧ ¬ (n.length = 2 ∧ n <+: ('-' :: t))) := by
    cases t with
    | nil => exact absurd rfl h
    | cons c t =>
      by_cases hc : c = '-'
      · subst hc
        simp only [optCandidates, List.filterMap_eq_nil_iff, List.isPrefixOf_iff_prefix]
        constructor
        · intro hx
          refine ⟨fun _ o n hn hp => ?_, fun hne => absurd ⟨t, rfl⟩ hne⟩
          have := hx (n, o) (mem_table.2 hn)
          rw [if_pos hp] at this
          simp at this
        · intro hx x hxm
          rw [if_neg (hx.1 ⟨t, rfl⟩ x.2 x.1 (table_names x hxm))]
      · have e : optCandidates solverOptions ('-' :: c :: t) = solverOptions.filterMap fun o =>
            if o.1 = ['-', c] then some (.opt o.2 false (some t)) else if ('-' :: c :: t).isPrefixOf o.1 then some (.opt o.2 false none) else none := by
          unfold optCandidates
          split
          · rename_i heq; exact absurd (List.cons.inj (List.cons.inj heq).2).1 hc
          · rename_i c' t' _ heq
            obtain ⟨rfl, rfl⟩ := List.cons.inj (List.cons.inj heq).2
            rfl
          · rename_i h1; exact absurd rfl (h1 c t)
        rw [e, List.filterMap_eq_nil_iff]
        have hne : ¬ ∃ u, c :: t = '-' :: u := by rintro ⟨u, hu⟩; exact hc (List.cons.inj hu).1
        constructor
        · intro hx
          refine ⟨fun hy => absurd hy hne, fun _ o n hn => ?_⟩
          have := hx (n, o) (mem_table.2 hn)
          simp only at this
          split at this
          · simp at this
          · rename_i h1
            split at this
            · simp at this
            · rename_i h2
              rw [List.isPrefixOf_iff_prefix] at h2
              exact ⟨h2, fun h3 => h1 (short_take.1 h3)⟩
        · intro hx x hxm
          have := hx.2 hne x.2 x.1 (table_names x hxm)
          rw [if_neg fun e => this.2 (short_take.2 e), if_neg (by rw [List.isPrefixOf_iff_prefix]; exact this.1)]
  have hlook : ∀ w, optLookup solverOptions w = none ↔ ∀ o : SOpt, w ∉ o.names := by
    intro w
    constructor
    · intro hn o ho
      rw [lookup_iff.2 ho] at hn; simp at hn
    · intro hn
      exact lookup_none fun o n hn' e => hn o (e ▸ hn')
  rw [hcand, hlook]
  constructor
  · intro hT
    have hT' : ∀ o : SOpt, ∀ n ∈ o.names, ¬ (('-' :: t) <+: n ∨ (n ++ ['=']) <+: ('-' :: t) ∨
        ("--".toList <+: ('-' :: t) ∧ ∃ b u, '-' :: t = b ++ '=' :: u ∧ '=' ∉ b ∧ b <+: n) ∨ (n.length = 2 ∧ n <+: ('-' :: t))) := fun o n hn hx => hT ⟨o, n, hn, hx⟩
    refine ⟨fun o ho => hT' o _ ho (.inl List.prefix_rfl), ?_, ?_, ?_⟩
    · by_cases hq : '=' ∈ ('-' :: t)
      · obtain ⟨u, hu⟩ := eq_split hq
        have : optLookup solverOptions (beforeEq ('-' :: t)) = none := (hlook _).2 fun o ho =>
          hT' o _ ho (.inr (.inl ⟨u, by rw [List.append_assoc]; exact hu.symm⟩))
        rw [this]; cases afterEq ('-' :: t) <;> rfl
      · unfold afterEq; rw [if_neg hq]; rfl
    · rintro ⟨u, rfl⟩ o n hn hp
      rcases prefix_beforeEq hp with h1 | ⟨v, hv⟩
      · exact hT' o n hn (.inl h1)
      · exact hT' o n hn (.inr (.inr (.inl ⟨⟨u, rfl⟩, _, v, hv, beforeEq_no _, hp⟩)))
    · intro _ o n hn
      exact ⟨fun h1 => hT' o n hn (.inl h1), fun h1 => hT' o n hn (.inr (.inr (.inr h1)))⟩
  · rintro ⟨h1, h2, h3, h4⟩ ⟨o, n, hn, hx⟩
    rcases hx with hx | hx | ⟨⟨u, hu⟩, b, v, e, hb, hp⟩ | hx
    · by_cases hd : ∃ u, t = '-' :: u
      · refine h3 hd o n hn (List.IsPrefix.trans ?_ hx)
        exact List.takeWhile_prefix _
      · exact (h4 hd o n hn).1 hx
    · obtain ⟨r, hr⟩ := hx
      have e : '-' :: t = n ++ '=' :: r := by rw [← hr, List.append_assoc]; rfl
      rw [e, beforeEq_append (noeq o hn), afterEq_append (noeq o hn), lookup_iff.2 hn] at h2
      simp at h2
    · have hu' : t = '-' :: u := ((List.cons.inj hu).2).symm
      refine h3 ⟨u, hu'⟩ o n hn ?_
      rw [e, beforeEq_append hb]
      exact hp
    · by_cases hd : ∃ u, t = '-' :: u
      · obtain ⟨u, rfl⟩ := hd
        have := short_take.1 hx
        exact short_nodash o (all_mem o) n hn hx.1 this
      · exact (h4 hd o n hn).2 hx

/-- The words that are taken for values. -/
theorem arg_iff (v : Str) : classify solverOptions v = .arg ↔ IsValueWord v := by
  unfold IsValueWord
  cases v with
  | nil => simp [classify]
  | cons c t =>
    by_cases hc : c = '-'
    · subst hc
      by_cases ht : t = []
      · subst ht
        exact ⟨fun _ => .inr (.inl rfl), fun _ => rfl⟩
      · have hne : ('-' :: t) ≠ "-".toList := fun e => ht (List.cons.inj e).2
        simp only [List.head?_cons, ne_eq, not_true_eq_false, false_or, hne]
        rw [untouched ht, ← negLike_iff]
        unfold classify
        simp only [ne_eq, not_true_eq_false, if_false]
        cases h1 : optLookup solverOptions ('-' :: t) with
        | some o => simp
        | none =>
          simp only [ht, if_false]
          cases h2 : ((afterEq ('-' :: t)).bind fun _ => optLookup solverOptions (beforeEq ('-' :: t))) with
          | some o => simp
          | none =>
            simp only
            have hw : ∀ w ∈ optCandidates solverOptions ('-' :: t), w ≠ .arg := by
              intro w hw
              unfold optCandidates at hw
              split at hw
              · obtain ⟨x, _, hx⟩ := List.mem_filterMap.1 hw
                split at hx
                · rw [← Option.some.inj hx]; simp
                · simp at hx
              · obtain ⟨x, _, hx⟩ := List.mem_filterMap.1 hw
                split at hx
                · rw [← Option.some.inj hx]; simp
                · split at hx
                  · rw [← Option.some.inj hx]; simp
                  · simp at hx
              · simp at hw
            match hk : optCandidates solverOptions ('-' :: t) with
            | _ :: _ :: _ => simp
            | [w] =>
              rw [hk] at hw
              simp only [reduceCtorEq, and_false, false_and, iff_false]
              exact hw w (by simp)
            | [] =>
              simp only [true_and]
              cases hn : negLike ('-' :: t) <;> by_cases hs : ' ' ∈ ('-' :: t) <;> simp [hs]
    · simp [classify, hc]

/-! ### words with options -/

theorem letter_values : ∀ x ∈ solverOptions, x.1.length = 2 → x.2.values = 0 ∨ x.2.values = 1 := by decide +kernel

theorem letters_iff : ∀ (cs : List Char) (a : SOpt) (es : List (SOpt × Option Str)),
    optLetters solverOptions (fun o => decide (o.arity ≠ 0)) a cs = some es ↔ ∃ r, es = (a, none) :: r ∧ Letters cs r
  | [], a, es => by
    simp only [optLetters, reduceCtorEq, false_iff, not_exists, not_and]
    intro r _ h
    cases h
  | c :: cs, a, es => by
    rw [optLetters]
    cases hl : optLookup solverOptions ['-', c] with
    | none =>
      simp only [reduceCtorEq, false_iff, not_exists, not_and]
      intro r _ h
      cases h with
      | last h => rw [lookup_iff.2 h] at hl; simp at hl
      | flag h => rw [lookup_iff.2 h] at hl; simp at hl
      | value h => rw [lookup_iff.2 h] at hl; simp at hl
    | some b =>
      have hb := lookup_iff.1 hl
      have huniq : ∀ o : SOpt, ['-', c] ∈ o.names → o = b := by
        intro o ho
        rw [lookup_iff.2 ho] at hl
        exact Option.some.inj hl
      simp only
      cases cs with
      | nil =>
        simp only [if_true, Option.some.injEq]
        constructor
        · rintro rfl; exact ⟨_, rfl, .last hb⟩
        · rintro ⟨r, rfl, h⟩
          cases h with
          | last h => rw [huniq _ h]
      | cons d cs =>
        rw [if_neg (by simp)]
        have hv := letter_values _ (mem_table.2 hb) rfl
        simp only at hv
        rcases hv with hv | hv
        · rw [if_neg (by rw [arity_eq, hv]; simp)]
          rw [Option.map_eq_some_iff]
          constructor
          · rintro ⟨r, hr, rfl⟩
            obtain ⟨q, rfl, hq⟩ := (letters_iff (d :: cs) b r).1 hr
            exact ⟨_, rfl, .flag hb hv hq⟩
          · rintro ⟨r, rfl, h⟩
            cases h with
            | flag h _ h2 =>
              rw [huniq _ h]
              exact ⟨_, (letters_iff (d :: cs) b _).2 ⟨_, rfl, h2⟩, rfl⟩
            | value h h2 => rw [huniq _ h, hv] at h2; simp at h2
        · rw [if_pos (by rw [arity_eq, hv]; simp)]
          simp only [Option.some.injEq]
          constructor
          · rintro rfl; exact ⟨_, rfl, .value hb hv⟩
          · rintro ⟨r, rfl, h⟩
            cases h with
            | flag h h2 _ => rw [huniq _ h, hv] at h2; simp at h2
            | value h h2 => rw [huniq _ h]

theorem filterMap_one {A B : Type} [DecidableEq A] {f : A → Option B} {l : List A} {y : B} (hn : l.Nodup) (h : l.filterMap f = [y]) :
    ∃ x ∈ l, f x = some y ∧ ∀ z ∈ l, (f z).isSome = true → z = x := by
  have hlen : (l.filter fun x => (f x).isSome).length = 1 := by
    have : ∀ l : List A, (l.filter fun x => (f x).isSome).length = (l.filterMap f).length := by
      intro l
      induction l with
      | nil => rfl
      | cons a l ih =>
        rw [List.filter_cons, List.filterMap_cons]
        cases h : f a with
        | none => simpa [h] using ih
        | some b => simpa [h] using ih
    rw [this, h]; rfl
  have hy : y ∈ l.filterMap f := by rw [h]; simp
  obtain ⟨x, hx, hfx⟩ := List.mem_filterMap.1 hy
  refine ⟨x, hx, hfx, fun z hz hs => ?_⟩
  exact (one_of hn fun x => (f x).isSome).1 (le_of_eq hlen) z hz x hx hs (by rw [hfx]; rfl)

theorem table_nodup : solverOptions.Nodup := by decide +kernel

/-- The three ways in which a word is an option. -/
theorem classify_cases {w : Str} {o : SOpt} {long : Bool} {v : Option Str} (h : classify solverOptions w = .opt o long v) :
    (v = none ∧ Spells o w) ∨
    (∃ n u, w = n ++ '=' :: u ∧ v = some u ∧ Spells o n ∧ (n ∈ o.names ∨ "--".toList <+: n) ∧ (long = true ↔ "--".toList <+: n)) ∨
    (∃ c d t, w = '-' :: c :: d :: t ∧ v = some (d :: t) ∧ long = false ∧ ['-', c] ∈ o.names ∧
      ∀ o' : SOpt, ∀ n ∈ o'.names, ¬ w <+: n ∧ ¬ (n ++ ['=']) <+: w) := by
  unfold classify at h
  split at h
  · simp at h
  rename_i c t
  by_cases hc : c = '-'
  swap
  · rw [if_pos hc] at h; simp at h
  subst hc
  simp only [ne_eq, not_true_eq_false, if_false] at h
  split at h
  · rename_i a ha
    obtain ⟨rfl, -, rfl⟩ := Word.opt.inj h
    exact .inl ⟨rfl, .inl (lookup_iff.1 ha)⟩
  rename_i hl
  by_cases ht : t = []
  · rw [if_pos ht] at h; simp at h
  rw [if_neg ht] at h
  split at h
  · rename_i a ha
    obtain ⟨rfl, h2, rfl⟩ := Word.opt.inj h
    right; left
    by_cases hq : '=' ∈ ('-' :: t)
    swap
    · unfold afterEq at ha; rw [if_neg hq] at ha; simp at ha
    obtain ⟨u, hu⟩ := eq_split hq
    have hae : afterEq ('-' :: t) = some u := by
      have := afterEq_append (v := u) (beforeEq_no ('-' :: t))
      rwa [← hu] at this
    rw [hae] at ha
    simp only [Option.bind_some] at ha
    have hm := lookup_iff.1 ha
    refine ⟨_, u, hu, hae, .inl hm, .inl hm, ?_⟩
    rw [← h2, decide_eq_true_eq]
    generalize beforeEq ('-' :: t) = n at hu hm
    have hhead := (names_classify _ (all_mem _) n hm).2.2.2
    cases n with
    | nil => simp at hhead
    | cons c n =>
      simp only [List.cons_append, List.cons.injEq] at hu
      obtain ⟨rfl, rfl⟩ := hu
      cases n with
      | nil => exact absurd hm (by cases a <;> decide)
      | cons d n =>
        simp only [List.cons_append, List.head?_cons, Option.some.injEq]
        constructor
        · rintro rfl; exact ⟨n, rfl⟩
        · rintro ⟨r, hr⟩
          exact ((List.cons.inj (List.cons.inj hr).2).1).symm
  rename_i hl2
  have hnoeq : ∀ o' : SOpt, ∀ n ∈ o'.names, ¬ (n ++ ['=']) <+: ('-' :: t) := by
    rintro o' n hn ⟨r, hr⟩
    have e : '-' :: t = n ++ '=' :: r := by rw [← hr, List.append_assoc]; rfl
    rw [e, beforeEq_append (noeq o' hn), afterEq_append (noeq o' hn), lookup_iff.2 hn] at hl2
    simp at hl2
  split at h
  · simp at h
  · rename_i w hw
    subst h
    cases t with
    | nil => exact absurd rfl ht
    | cons c t =>
      by_cases hc : c = '-'
      · subst hc
        simp only [optCandidates] at hw
        obtain ⟨x, hx, hfx, hun⟩ := filterMap_one table_nodup hw
        split at hfx
        swap
        · simp at hfx
        rename_i hp
        obtain ⟨rfl, h2, rfl⟩ := Word.opt.inj (Option.some.inj hfx)
        have hpre : "--".toList <+: beforeEq ('-' :: '-' :: t) := by
          unfold beforeEq
          rw [List.takeWhile_cons_of_pos (by decide), List.takeWhile_cons_of_pos (by decide)]
          exact ⟨_, rfl⟩
        have hsp : Spells x.2 (beforeEq ('-' :: '-' :: t)) := by
          refine .inr ⟨⟨x.1, table_names x hx, List.isPrefixOf_iff_prefix.1 hp⟩, ?_⟩
          rintro o' n hn (h1 | h1)
          · have := hun (n, o') (mem_table.2 hn) (by rw [if_pos (List.isPrefixOf_iff_prefix.2 h1)]; rfl)
            rw [← this]
          · exfalso
            obtain ⟨r, hr⟩ := hpre
            rw [← hr] at h1
            exact short_nodash o' (all_mem o') n hn (by rw [h1]; rfl) h1
        by_cases hq : '=' ∈ ('-' :: '-' :: t)
        · right; left
          obtain ⟨u, hu⟩ := eq_split hq
          have hae : afterEq ('-' :: '-' :: t) = some u := by
            have := afterEq_append (v := u) (beforeEq_no ('-' :: '-' :: t))
            rwa [← hu] at this
          exact ⟨_, u, hu, hae, hsp, .inr hpre, by rw [← h2]; simpa using hpre⟩
        · left
          have hb : beforeEq ('-' :: '-' :: t) = '-' :: '-' :: t := takeWhile_every fun c hc => by
            simp only [ne_eq, decide_not, Bool.not_eq_eq_eq_not, Bool.not_true, decide_eq_false_iff_not]
            exact fun e => hq (e ▸ hc)
          rw [hb] at hsp
          exact ⟨by unfold afterEq; rw [if_neg hq], hsp⟩
      · have e : optCandidates solverOptions ('-' :: c :: t) = solverOptions.filterMap fun o =>
            if o.1 = ['-', c] then some (.opt o.2 false (some t)) else if ('-' :: c :: t).isPrefixOf o.1 then some (.opt o.2 false none) else none := by
          unfold optCandidates
          split
          · rename_i heq; exact absurd (List.cons.inj (List.cons.inj heq).2).1 hc
          · rename_i c' t' _ heq
            obtain ⟨rfl, rfl⟩ := List.cons.inj (List.cons.inj heq).2
            rfl
          · rename_i h1; exact absurd rfl (h1 c t)
        rw [e] at hw
        obtain ⟨x, hx, hfx, hun⟩ := filterMap_one table_nodup hw
        split at hfx
        · rename_i hx1
          obtain ⟨rfl, h2, rfl⟩ := Word.opt.inj (Option.some.inj hfx)
          have hmem : ['-', c] ∈ x.2.names := hx1 ▸ table_names x hx
          cases t with
          | nil => rw [lookup_iff.2 hmem] at hl; simp at hl
          | cons d t =>
            right; right
            refine ⟨c, d, t, rfl, rfl, h2.symm, hmem, fun o' n hn => ⟨fun hp => ?_, hnoeq o' n hn⟩⟩
            have := hun (n, o') (mem_table.2 hn) (by
              split
              · rfl
              · rw [if_pos (List.isPrefixOf_iff_prefix.2 hp)]; rfl)
            rw [← this] at hx1
            simp only at hx1
            rw [hx1] at hp
            have := hp.length_le
            simp at this
        · rename_i hx1
          split at hfx
          swap
          · simp at hfx
          rename_i hp
          obtain ⟨rfl, h2, rfl⟩ := Word.opt.inj (Option.some.inj hfx)
          left
          refine ⟨rfl, .inr ⟨⟨x.1, table_names x hx, List.isPrefixOf_iff_prefix.1 hp⟩, ?_⟩⟩
          intro o' n hn hy
          have := hun (n, o') (mem_table.2 hn) (by
            split
            · rfl
            · rename_i hne
              rw [if_pos (List.isPrefixOf_iff_prefix.2 (hy.resolve_right hne))]; rfl)
          rw [← this]
  · split at h
    · simp at h
    · split at h <;> simp at h

theorem means_iff (w : Str) (es : List (SOpt × Option Str)) : WordMeans w es ↔
    ∃ o long v, classify solverOptions w = .opt o long v ∧ optExpand solverOptions (fun o => decide (o.arity ≠ 0)) long o v = some es ∧ wordsWanted es ≠ none := by
  have hlast : ∀ {cs : List Char} {es : List (SOpt × Option Str)}, Letters cs es → wordsWanted es ≠ none ∧ es ≠ [] := by
    intro cs es h
    induction h with
    | last h => simp [wordsWanted]
    | flag h _ _ ih =>
      refine ⟨?_, by simp⟩
      rw [wordsWanted, List.getLast?_cons_of_ne_nil ih.2]
      exact ih.1
    | value h h1 => simp [wordsWanted, arity_eq, h1]
  have htake : ∀ n : Str, n.take 2 = "--".toList ↔ "--".toList <+: n := by
    intro n
    constructor
    · intro h; rw [← h]; exact List.take_prefix _ _
    · rintro ⟨r, rfl⟩; rfl
  constructor
  · intro h
    cases h with
    | name h => exact ⟨_, _, _, (spells_classify h).1, rfl, by simp [wordsWanted]⟩
    | @equals o n v h1 h2 h3 =>
      refine ⟨_, _, _, equals_classify h1 h2, ?_, ?_⟩
      · rw [optExpand, if_pos (by rw [arity_eq, h3]; simp)]
      · simp [wordsWanted, arity_eq, h3]
    | @letters c d cs es h1 h2 =>
      cases h1 with
      | @flag o _ _ _ r ho hz hr =>
        refine ⟨_, _, _, letter_classify ho (by simp) (fun o' n hn => (h2 o' n hn).1) (fun o' n hn => (h2 o' n hn).2), ?_, (hlast (.flag ho hz hr)).1⟩
        rw [optExpand, if_neg (by rw [arity_eq, hz]; simp), if_neg (by simp)]
        exact (letters_iff _ _ _).2 ⟨_, rfl, hr⟩
      | @value o _ _ _ ho h3 =>
        refine ⟨_, _, _, letter_classify ho (by simp) (fun o' n hn => (h2 o' n hn).1) (fun o' n hn => (h2 o' n hn).2), ?_, ?_⟩
        · rw [optExpand, if_pos (by rw [arity_eq, h3]; simp)]
        · simp [wordsWanted, arity_eq, h3]
    | @slip o n cs es h1 h2 h3 h4 =>
      refine ⟨_, _, _, equals_classify (.inl h1) (.inl h1), ?_, ?_⟩
      · rw [optExpand, if_neg (by rw [arity_eq, h3]; simp), if_neg (by rw [decide_eq_true_eq, htake]; exact h2)]
        exact (letters_iff _ _ _).2 ⟨_, rfl, h4⟩
      · rw [wordsWanted, List.getLast?_cons_of_ne_nil (hlast h4).2]
        exact (hlast h4).1
  · rintro ⟨o, long, v, h1, h2, h3⟩
    rcases classify_cases h1 with ⟨rfl, hs⟩ | ⟨n, u, rfl, rfl, hs, hn, hlong⟩ | ⟨c, d, t, rfl, rfl, rfl, hm, hp⟩
    · simp only [optExpand, Option.some.injEq] at h2
      subst h2
      exact .name hs
    · rw [optExpand] at h2
      split at h2
      · rename_i ha
        obtain rfl := Option.some.inj h2
        refine .equals hs hn ?_
        rw [← arity_eq]
        simp only [wordsWanted, List.getLast?_singleton, ne_eq, ite_eq_right_iff, reduceCtorEq, imp_false, not_not] at h3
        exact h3
      · rename_i ha
        split at h2
        · simp at h2
        · rename_i hl
          obtain ⟨r, rfl, hr⟩ := (letters_iff _ _ _).1 h2
          have hnd : ¬ "--".toList <+: n := fun hx => hl (hlong.2 hx)
          exact .slip (hn.resolve_right hnd) hnd (by rw [← arity_eq]; simpa using ha) hr
    · rw [optExpand] at h2
      have hv := letter_values _ (mem_table.2 hm) rfl
      simp only at hv
      rcases hv with hv | hv
      · rw [if_neg (by rw [arity_eq, hv]; simp), if_neg (by simp)] at h2
        obtain ⟨r, rfl, hr⟩ := (letters_iff _ _ _).1 h2
        exact .letters (.flag hm hv hr) hp
      · rw [if_pos (by rw [arity_eq, hv]; simp)] at h2
        obtain rfl := Option.some.inj h2
        exact .letters (.value hm hv) hp

/-! ### from the words to the events and back -/

theorem withValues_ev (es : List (SOpt × Option Str)) (vs : List Str) : optEvents es vs = (withValues es vs).map toEv := by
  unfold optEvents withValues
  rw [List.map_append, List.map_map]
  cases es.getLast? <;> rfl

theorem dashes_ambiguous : classify solverOptions "--".toList = .ambiguous := by decide +kernel

theorem means_ne {w : Str} {es : List (SOpt × Option Str)} (h : WordMeans w es) : w ≠ "--".toList ∧ classify solverOptions w ≠ .ambiguous := by
  obtain ⟨o, long, v, h1, _, _⟩ := (means_iff w es).1 h
  rw [h1]
  refine ⟨?_, by simp⟩
  rintro rfl
  rw [dashes_ambiguous] at h1
  simp at h1

theorem value_ne {v : Str} (h : IsValueWord v) : v ≠ "--".toList ∧ classify solverOptions v = .arg := by
  have := (arg_iff v).2 h
  refine ⟨?_, this⟩
  rintro rfl
  rw [dashes_ambiguous] at this
  simp at this

theorem wanted_last {es : List (SOpt × Option Str)} (h : wordsWanted es ≠ none) (hne : es ≠ []) (vs : List Str) :
    wordsWanted es = some vs.length ↔ ∀ e, es.getLast? = some e → vs.length = match e.2 with | some _ => 0 | none => e.1.values := by
  obtain ⟨e, he⟩ : ∃ e, es.getLast? = some e := ⟨_, List.getLast?_eq_some_getLast hne⟩
  unfold wordsWanted at h ⊢
  rw [he] at h ⊢
  obtain ⟨o, v⟩ := e
  cases v with
  | none =>
    simp only [Option.some.injEq, forall_eq', arity_eq]
    exact eq_comm
  | some v =>
    simp only at h ⊢
    split at h
    · rename_i h1
      rw [if_pos h1]
      simp only [Option.some.injEq, forall_eq']
      exact eq_comm
    · exact absurd rfl h

/-- One step of the parser over the words. -/
theorem events_step {w : Str} {vs : List Str} {es : List (SOpt × Option Str)} (h : WordMeans w es)
    (hn : ∀ e, es.getLast? = some e → vs.length = match e.2 with | some _ => 0 | none => e.1.values) (hv : ∀ v ∈ vs, IsValueWord v) (rest : List (Str × Word SOpt)) :
    events ((w :: vs).map cls ++ rest) = (withValues es vs).map toEv ++ events rest ∧ ∀ i ∈ withValues es vs, i.2.length = i.1.values := by
  obtain ⟨o, long, v, h1, h2, h3⟩ := (means_iff w es).1 h
  have hok := optExpand_ok h2
  have hw := (wanted_last h3 hok.1 vs).2 hn
  constructor
  · rw [List.map_cons, List.cons_append, cls, h1, events, h2]
    simp only [hw]
    have h12 : vs.length ≤ 2 := by
      obtain ⟨e, he⟩ : ∃ e, es.getLast? = some e := ⟨_, List.getLast?_eq_some_getLast hok.1⟩
      have := hn e he
      have h0 : e.1.values ≤ 2 := by cases e.1 <;> simp [SOpt.values]
      split at this <;> omega
    match vs, h12 with
    | [], _ => rw [← withValues_ev]; rfl
    | [a], _ =>
      simp only [List.length_cons, List.length_nil, List.map_cons, List.map_nil, cls, (value_ne (hv a (by simp))).2, List.cons_append, List.nil_append]
      rw [← withValues_ev]
    | [a, b], _ =>
      simp only [List.length_cons, List.length_nil, List.map_cons, List.map_nil, cls, (value_ne (hv a (by simp))).2, (value_ne (hv b (by simp))).2, List.cons_append, List.nil_append]
      rw [← withValues_ev]
  · intro i hi
    have : toEv i ∈ optEvents es vs := by rw [withValues_ev]; exact List.mem_map_of_mem hi
    obtain ⟨j, e, hj⟩ := optEvents_ok hok hw rfl _ this
    have : i = j := by
      obtain ⟨a, b⟩ := i
      obtain ⟨c, d⟩ := j
      simp only [toEv, Ev.act.injEq] at e
      rw [e.1, e.2]
    rw [this]
    exact hj

theorem reads_events {ws : List Str} {is : List (SOpt × List Str)} (h : Reads ws is) :
    events (wordClasses ws) = is.map toEv ∧ ((wordClasses ws).any fun c => decide (c.2 = .ambiguous)) = false ∧ ∀ i ∈ is, i.2.length = i.1.values := by
  induction h with
  | nil => exact ⟨rfl, rfl, by simp⟩
  | @cons w vs ws es is h1 h2 h3 _ ih =>
    obtain ⟨i1, i2, i3⟩ := ih
    obtain ⟨k1, k2⟩ := events_step h1 h2 h3 (wordClasses ws)
    have hd : "--".toList ∉ w :: vs := by
      rintro hm
      rcases List.mem_cons.1 hm with e | hm
      · exact (means_ne h1).1 e.symm
      · exact (value_ne (h3 _ hm)).1 rfl
    rw [wordClasses_append _ hd]
    refine ⟨by rw [k1, i1, List.map_append], ?_, ?_⟩
    · rw [List.any_append, i2, Bool.or_false, List.any_eq_false]
      intro c hc
      obtain ⟨x, hx, rfl⟩ := List.mem_map.1 hc
      intro e
      have e : classify solverOptions x = .ambiguous := of_decide_eq_true e
      rcases List.mem_cons.1 hx with rfl | hx
      · exact (means_ne h1).2 e
      · rw [(value_ne (h3 _ hx)).2] at e; simp at e
    · intro i hi
      rcases List.mem_append.1 hi with hi | hi
      · exact k2 i hi
      · exact i3 i hi

theorem wordClasses_arg {ws : List Str} {a : Str} {r : List (Str × Word SOpt)} (h : wordClasses ws = (a, .arg) :: r) :
    ∃ ws', ws = a :: ws' ∧ IsValueWord a ∧ r = wordClasses ws' := by
  cases ws with
  | nil => simp [wordClasses] at h
  | cons w ws =>
    rw [wordClasses] at h
    split at h
    · simp at h
    · obtain ⟨h1, h2⟩ := List.cons.inj h
      obtain ⟨rfl, h3⟩ := Prod.mk.inj h1
      exact ⟨ws, rfl, (arg_iff w).1 h3, h2.symm⟩

theorem map_ev_split : ∀ {as js : List (SOpt × List Str)} {es : List Ev}, as.map toEv ++ es = js.map toEv → ∃ r, js = as ++ r ∧ es = r.map toEv
  | [], js, es, h => ⟨js, rfl, h⟩
  | a :: as, [], es, h => by simp at h
  | a :: as, j :: js, es, h => by
    simp only [List.map_cons, List.cons_append, List.cons.injEq] at h
    obtain ⟨r, rfl, hr⟩ := map_ev_split h.2
    have : a = j := by
      obtain ⟨a1, a2⟩ := a
      obtain ⟨b1, b2⟩ := j
      simp only [toEv, Ev.act.injEq] at h
      rw [h.1.1, h.1.2]
    exact ⟨r, by rw [this]; rfl, hr⟩

theorem events_reads : ∀ (n : Nat) (ws : List Str) (js : List (SOpt × List Str)), ws.length ≤ n → events (wordClasses ws) = js.map toEv → Reads ws js := by
  intro n
  induction n with
  | zero =>
    intro ws js h e
    rw [List.length_eq_zero_iff.1 (Nat.le_zero.1 h)] at e ⊢
    cases js with
    | nil => exact .nil
    | cons j js => simp [wordClasses, events] at e
  | succ n ih =>
    intro ws js h e
    cases ws with
    | nil =>
      cases js with
      | nil => exact .nil
      | cons j js => simp [wordClasses, events] at e
    | cons w ws =>
      have hbad : ∀ es' : List Ev, (.extra :: es' : List Ev) ≠ js.map toEv ∧ ([.err] : List Ev) ≠ js.map toEv := by
        intro es'
        cases js <;> simp [toEv]
      rw [wordClasses] at e
      split at e
      · exact absurd e (hbad _).1
      cases hc : classify solverOptions w with
      | arg => rw [hc, events] at e; exact absurd e (hbad _).1
      | unknown => rw [hc, events] at e; exact absurd e (hbad _).1
      | ambiguous => rw [hc, events] at e; exact absurd e (hbad []).2
      | opt o long v =>
        rw [hc, events] at e
        split at e
        · exact absurd e (hbad []).2
        rename_i es hes
        have hok := optExpand_ok hes
        have key : ∀ (vs ws' : List Str), ws = vs ++ ws' → wordsWanted es = some vs.length → (∀ v ∈ vs, IsValueWord v) →
            optEvents es vs ++ events (wordClasses ws') = js.map toEv → Reads (w :: ws) js := by
          intro vs ws' hws hw hv e
          have h3 : wordsWanted es ≠ none := by rw [hw]; simp
          rw [withValues_ev] at e
          obtain ⟨r, rfl, hr⟩ := map_ev_split e
          rw [hws]
          refine .cons ((means_iff w es).2 ⟨o, long, v, hc, hes, h3⟩) ((wanted_last h3 hok.1 vs).1 hw) hv (ih ws' r ?_ hr)
          rw [hws] at h
          simp only [List.length_cons, List.length_append] at h
          omega
        split at e
        · rename_i hw
          exact key [] ws rfl hw (by simp) e
        · rename_i hw
          split at e
          · rename_i a r hr
            obtain ⟨ws', e1, e2, e3⟩ := wordClasses_arg hr
            exact key [a] ws' e1 hw (by simpa using e2) (by rw [← e3]; exact e)
          · exact absurd e (hbad []).2
        · rename_i hw
          split at e
          · rename_i a b r hr
            obtain ⟨ws', e1, e2, e3⟩ := wordClasses_arg hr
            obtain ⟨ws'', f1, f2, f3⟩ := wordClasses_arg e3.symm
            refine key [a, b] ws'' (by rw [e1, f1]; rfl) hw ?_ (by rw [← f3]; exact e)
            intro x hx
            simp only [List.mem_cons, List.not_mem_nil, or_false] at hx
            rcases hx with rfl | rfl
            · exact e2
            · exact f2
          · exact absurd e (hbad []).2
        · exact absurd e (hbad []).2

/-- **C101** Exactly the command lines that are accepted, and the options they give: those that read as a list of options with values, without `-h` and `--version`, whose values can be used,
with at most one of `-v`, `-vv`, `-q`, `-qn` and exactly one of `-l`, `-lf`, `-d`. -/
theorem C101_exact (fs : Files) (ws : List Str) (o : Opts) (g : Option Str) :
    parseLine fs ws = .runs o g ↔
      ∃ is, Reads ws is ∧ (∀ i ∈ is, i.1 ≠ .help ∧ i.1 ≠ .version) ∧ Accepted fs is ∧ o = asked fs is ∧ g = valueOf .graph is := by
  constructor
  · intro h
    simp only [parseLine] at h
    split at h
    · simp at h
    rcases runEvents_all fs (events (wordClasses ws)) (did_nil fs) rfl (events_ok _ _ le_rfl) with ⟨n, _, e⟩ | ⟨js, j1, j2, j3, j4⟩
    · rw [e] at h; simp at h
    · rw [j4] at h
      obtain ⟨rfl, rfl⟩ := Line.runs.inj h
      exact ⟨js, events_reads _ _ _ le_rfl j1, fun i hi => (j2 i hi).2, by simpa using j3, rfl, rfl⟩
  · rintro ⟨is, h, hh, ha, rfl, rfl⟩
    obtain ⟨h1, h2, h3⟩ := reads_events h
    have e : parseLine fs ws = runEvents fs {} (is.map toEv ++ []) := by simp only [parseLine]; rw [h2, h1, List.append_nil]; rfl
    rw [e]
    obtain ⟨k1, _⟩ := runEvents_acts (fs := fs) [] is (did_nil fs) fun i hi => ⟨h3 i hi, hh i hi⟩
    rw [List.nil_append] at k1
    obtain ⟨q, hq, hx, e1⟩ := k1 ((accepted_iff fs is).1 ha).1
    rw [e1]
    exact (runEvents_end hq (by rw [hx])).1 ha

/-- **C101** A command line reads in at most one way. -/
theorem C101_unique {ws : List Str} {is js : List (SOpt × List Str)} (h : Reads ws is) (h' : Reads ws js) : is = js := by
  have e : is.map toEv = js.map toEv := by rw [← (reads_events h).1, (reads_events h').1]
  exact List.map_injective_iff.2 (fun a b hab => by
    obtain ⟨a1, a2⟩ := a
    obtain ⟨b1, b2⟩ := b
    simp only [toEv, Ev.act.injEq] at hab
    rw [hab.1, hab.2]) e

/-- **C101** The spellings of `C101_request` are among them. -/
theorem C101_written {ws : List Str} {is : List (SOpt × List Str)} (h : Written ws is) : Reads ws is := events_reads _ _ _ le_rfl (written_events h).1

/-- **C101** No command line with the word `--` is accepted. -/
theorem C101_dashes (fs : Files) {ws : List Str} (h : "--".toList ∈ ws) : ∃ n, parseLine fs ws = .exits n := by
  cases hp : parseLine fs ws with
  | exits n => exact ⟨n, rfl⟩
  | runs o g =>
    exfalso
    obtain ⟨is, hr, -⟩ := (C101_exact fs ws o g).1 hp
    clear hp
    induction hr with
    | nil => simp at h
    | @cons w vs ws es is h1 h2 h3 _ ih =>
      rcases List.mem_append.1 h with h | h
      · rcases List.mem_cons.1 h with e | h
        · exact (means_ne h1).1 e.symm
        · exact (value_ne (h3 _ h)).1 rfl
      · exact ih h

/-- `-szt4 -d in.cnf` reads as `-s -z -t 4 -d in.cnf`. -/
example : Reads ("-szt4".toList :: [] ++ ("-d".toList :: ["in.cnf".toList] ++ []))
    (withValues [(.solution, none), (.size, none), (.threads, some "4".toList)] [] ++ (withValues [(.dimacs, none)] ["in.cnf".toList] ++ [])) := by
  refine .cons (.letters (.flag (by decide) rfl (.flag (by decide) rfl (.value (by decide) rfl))) ?_) (by rintro e he; obtain rfl := Option.some.inj he; rfl) (by simp)
    (.cons (.name (.inl (by decide))) (by rintro e he; obtain rfl := Option.some.inj he; rfl) ?_ .nil)
  · exact all_names (P := fun _ n => ¬ ('-' :: 's' :: 'z' :: "t4".toList) <+: n ∧ ¬ (n ++ ['=']) <+: ('-' :: 's' :: 'z' :: "t4".toList)) (by decide +kernel)
  · intro v hv
    rw [List.mem_singleton.1 hv]
    exact .inl (by decide)

end NDP
