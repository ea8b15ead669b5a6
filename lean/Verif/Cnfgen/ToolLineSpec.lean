import Verif.Cnfgen.ToolLine
import Verif.Props.MainLineExact
/-
  C102: which words of a command line are options, which are values, and what they give.  The specification, for any table of options, and the proof that the parser follows it.
-/
namespace NDP.Cnfgen
open NDP

/-! ### specification -/

section
variable {α : Type} (N : Str → α → Prop) (takes : α → Prop)

/-- The word is a name of the option, or a beginning of a long name with which no other name begins. -/
def NameOf (w : Str) (a : α) : Prop :=
  N w a ∨ ("--".toList <+: w ∧ (∀ b, ¬ N w b) ∧ ∃ n, N n a ∧ w <+: n ∧ ∀ m b, N m b → w <+: m → m = n)

/-- One-letter options written together: flags, and in the end any option, or an option directly followed by its value. -/
inductive LettersOf : List Char → List (α × Option Str) → Prop
  | last {a : α} {c : Char} : N ['-', c] a → LettersOf [c] [(a, none)]
  | flag {a : α} {c d : Char} {cs : List Char} {es : List (α × Option Str)} : N ['-', c] a → ¬ takes a → LettersOf (d :: cs) es → LettersOf (c :: d :: cs) ((a, none) :: es)
  | value {a : α} {c d : Char} {v : Str} : N ['-', c] a → takes a → LettersOf (c :: d :: v) [(a, some (d :: v))]

/-- The options in one word, with the values given in the word itself. -/
inductive WordGives : Str → List (α × Option Str) → Prop
  /-- `--output`, `-o`, `--out` -/
  | name {a : α} {w : Str} : NameOf N w a → WordGives w [(a, none)]
  /-- `--output=f`, `--out=f`, `-o=f` -/
  | equals {a : α} {n v : Str} : NameOf N n a → takes a → WordGives (n ++ '=' :: v) [(a, some v)]
  /-- `-of`, `-pv`, `-pvof` -/
  | letters {c d : Char} {cs : List Char} {es : List (α × Option Str)} : LettersOf N takes (c :: d :: cs) es → d ≠ '=' → WordGives ('-' :: c :: d :: cs) es
  /-- A slip of `argparse`: `-p=v` for `-p -v`. -/
  | slip {a : α} {c : Char} {cs : List Char} {es : List (α × Option Str)} : N ['-', c] a → ¬ takes a → LettersOf N takes cs es → WordGives ('-' :: c :: '=' :: cs) ((a, none) :: es)

/-- A word connected with an option: it begins with a one-letter name, or a long name begins with it or with its part before the first `=`. -/
def TouchesName (v : Str) : Prop :=
  ∃ n a, N n a ∧ ((n.length = 2 ∧ n <+: v) ∨ ("--".toList <+: v ∧ ∃ b, b <+: n ∧ (v = b ∨ ∃ u, v = b ++ '=' :: u)))

/-- A word that is taken for an argument or a value: it does not begin with a dash, is a dash alone, or is connected with no option and is a negative number or contains a space. -/
def ArgWord (v : Str) : Prop := v.head? ≠ some '-' ∨ v = "-".toList ∨ (¬ TouchesName N v ∧ (NegNumber v ∨ ' ' ∈ v))

/-- A word that is no name, and with which (or with the part of it before the first `=`) two long names begin. -/
def TwoNames (w : Str) : Prop :=
  ∃ b, "--".toList <+: b ∧ (w = b ∨ ∃ u, w = b ++ '=' :: u) ∧ (∀ a, ¬ N b a) ∧ ∃ n m a a', N n a ∧ N m a' ∧ n ≠ m ∧ b <+: n ∧ b <+: m

/-- An option with its value; flags have the empty text. -/
def valued (e : α × Option Str) : α × Str := (e.1, e.2.getD [])

/-- The command line `ws` begins with the options `is`; `rest` is the first argument and everything after it. -/
inductive ReadsAs : List Str → List (α × Str) → List Str → Prop
  | nil : ReadsAs [] [] []
  | rest {w : Str} {ws : List Str} : ArgWord N w → ReadsAs (w :: ws) [] (w :: ws)
  | word {w : Str} {ws rest : List Str} {es : List (α × Option Str)} {is : List (α × Str)} : WordGives N takes w es → (∀ e ∈ es, takes e.1 → e.2 ≠ none) → ReadsAs ws is rest →
      ReadsAs (w :: ws) (es.map valued ++ is) rest
  | value {w v : Str} {ws rest : List Str} {es : List (α × Option Str)} {a : α} {is : List (α × Str)} : WordGives N takes w (es ++ [(a, none)]) → takes a → ArgWord N v →
      ReadsAs ws is rest → ReadsAs (w :: v :: ws) (es.map valued ++ (a, v) :: is) rest
end

/-! ### proofs -/

section
variable {α : Type} {os : List (Str × α)} {N : Str → α → Prop} {tk : α → Bool}

/-- A table of options: one-letter names, and long names with two dashes; no name twice. -/
structure Tidy (os : List (Str × α)) (N : Str → α → Prop) : Prop where
  names : ∀ n a, N n a ↔ (n, a) ∈ os
  shape : ∀ o ∈ os, (∃ c, o.1 = ['-', c] ∧ c ≠ '-' ∧ c ≠ '=') ∨ (∃ c t, o.1 = '-' :: '-' :: c :: t ∧ '=' ∉ o.1)
  nodup : (os.map (·.1)).Nodup

theorem Tidy.lookup (h : Tidy os N) {w : Str} {a : α} : optLookup os w = some a ↔ N w a := by
  rw [h.names]
  constructor
  · exact optLookup_mem
  · intro hm
    unfold optLookup
    cases e : os.find? (fun o => decide (o.1 = w)) with
    | none =>
      have := List.find?_eq_none.1 e _ hm
      simp at this
    | some o =>
      have h1 := List.mem_of_find?_eq_some e
      have h2 : o.1 = w := by simpa using List.find?_some e
      have : o = (w, a) := List.inj_on_of_nodup_map h.nodup h1 hm h2
      rw [this]; rfl

theorem Tidy.lookup_none (h : Tidy os N) {w : Str} : optLookup os w = none ↔ ∀ a, ¬ N w a := by
  constructor
  · intro e a ha
    rw [h.lookup.2 ha] at e
    cases e
  · intro hn
    cases e : optLookup os w with
    | none => rfl
    | some a => exact absurd (h.lookup.1 e) (hn a)

theorem Tidy.noeq (h : Tidy os N) {n : Str} {a : α} (hn : N n a) : '=' ∉ n := by
  rcases h.shape _ ((h.names _ _).1 hn) with ⟨c, e, h1, h2⟩ | ⟨c, t, e, h1⟩
  · simp only at e; subst e; simp [Ne.symm h2]
  · exact h1

theorem Tidy.short (h : Tidy os N) {c : Char} {a : α} (hn : N ['-', c] a) : c ≠ '-' ∧ c ≠ '=' := by
  rcases h.shape _ ((h.names _ _).1 hn) with ⟨d, e, h1, h2⟩ | ⟨d, t, e, h1⟩
  · simp only [List.cons.injEq, true_and, and_true] at e; subst e; exact ⟨h1, h2⟩
  · simp at e

theorem Tidy.long (h : Tidy os N) {n t : Str} {c : Char} {a : α} (hn : N n a) (hp : ('-' :: c :: t) <+: n) : c = '-' ∨ n = ['-', c] := by
  obtain ⟨u, rfl⟩ := hp
  rcases h.shape _ ((h.names _ _).1 hn) with ⟨d, e, h1, h2⟩ | ⟨d, t, e, h1⟩
  · simp only [List.cons_append, List.cons.injEq, true_and, List.append_eq_nil_iff] at e
    obtain ⟨rfl, rfl, rfl⟩ := e
    exact .inr rfl
  · simp only [List.cons_append, List.cons.injEq, true_and] at e
    exact .inl e.1

theorem Tidy.two (h : Tidy os N) {n : Str} {a : α} (hn : N n a) : (∃ c, n = ['-', c] ∧ c ≠ '-') ∨ ("--".toList <+: n ∧ n.length ≠ 2) := by
  rcases h.shape _ ((h.names _ _).1 hn) with ⟨d, e, h1, h2⟩ | ⟨d, t, e, h1⟩
  · exact .inl ⟨d, e, h1⟩
  · simp only at e; subst e
    exact .inr ⟨⟨d :: t, rfl⟩, by simp⟩

/-- What a word without an option is. -/
def plainWord (v : Str) : Word α := if negLike v then .arg else if ' ' ∈ v then .arg else .unknown

theorem filterMap_pair {A B : Type} {l : List A} {p : A → Prop} [DecidablePred p] {f : A → B} (x : A) (hx : x ∈ l) (hp : p x) (hn : l.Nodup) (hu : ∀ y ∈ l, p y → y = x) :
    (l.filterMap fun y => if p y then some (f y) else none) = [f x] := by
  induction l with
  | nil => cases hx
  | cons y l ih =>
    obtain ⟨hy, hn⟩ := List.nodup_cons.1 hn
    by_cases hpy : p y
    · obtain rfl := hu y (by simp) hpy
      rw [List.filterMap_cons, if_pos hpy]
      have : (l.filterMap fun z => if p z then some (f z) else none) = [] := by
        rw [List.filterMap_eq_nil_iff]
        intro z hz
        rw [if_neg]
        intro hpz
        exact hy (hu z (by simp [hz]) hpz ▸ hz)
      rw [this]
    · rw [List.filterMap_cons, if_neg hpy]
      rcases List.mem_cons.1 hx with rfl | hx
      · exact absurd hp hpy
      · exact ih hx hn fun z hz => hu z (by simp [hz])

theorem Tidy.nd (h : Tidy os N) : os.Nodup := h.nodup.of_map

/-- The words with one dash. -/
theorem Tidy.classify_short (h : Tidy os N) {c : Char} (hc : c ≠ '-') (t : Str) :
    classify os ('-' :: c :: t) = match optLookup os ['-', c] with
      | some a => .opt a false (match t with | [] => none | d :: cs => if d = '=' then some cs else some (d :: cs))
      | none => plainWord ('-' :: c :: t) := by
  have hcand : optCandidates os ('-' :: c :: t) = match optLookup os ['-', c] with
      | some a => [.opt a false (some t)]
      | none => [] := by
    have e : optCandidates os ('-' :: c :: t) = os.filterMap fun o =>
        if o.1 = ['-', c] then some (Word.opt o.2 false (some t)) else if ('-' :: c :: t).isPrefixOf o.1 then some (.opt o.2 false none) else none := by
      unfold optCandidates
      split
      · rename_i heq; exact absurd (List.cons.inj (List.cons.inj heq).2).1 hc
      · rename_i c' t' _ heq
        obtain ⟨rfl, rfl⟩ := List.cons.inj (List.cons.inj heq).2
        rfl
      · rename_i h1; exact absurd rfl (h1 c t)
    have e2 : optCandidates os ('-' :: c :: t) = os.filterMap fun o => if o.1 = ['-', c] then some (Word.opt o.2 false (some t)) else none := by
      rw [e]
      apply List.filterMap_congr
      intro o ho
      by_cases h1 : o.1 = ['-', c]
      · rw [if_pos h1, if_pos h1]
      · rw [if_neg h1, if_neg h1, if_neg]
        intro hp
        have := h.long ((h.names o.1 o.2).2 ho) (List.isPrefixOf_iff_prefix.1 hp)
        tauto
    rw [e2]
    cases hl : optLookup os ['-', c] with
    | none =>
      simp only
      rw [List.filterMap_eq_nil_iff]
      intro o ho
      rw [if_neg]
      intro h1
      exact h.lookup_none.1 hl o.2 (h1 ▸ (h.names o.1 o.2).2 ho)
    | some a =>
      have hm := (h.names _ _).1 (h.lookup.1 hl)
      exact filterMap_pair (p := fun o : Str × α => o.1 = ['-', c]) (f := fun o => Word.opt o.2 false (some t)) (['-', c], a) hm rfl h.nd
        fun y hy h1 => List.inj_on_of_nodup_map h.nodup hy hm h1
  unfold classify
  simp only [ne_eq, not_true_eq_false, if_false, reduceCtorEq]
  cases t with
  | nil =>
    cases hl : optLookup os ['-', c] with
    | some a => simp [hc]
    | none =>
      simp only
      have hb : ((afterEq ['-', c]).bind fun _ => optLookup os (beforeEq ['-', c])) = none := by
        by_cases h1 : c = '='
        · subst h1
          have : optLookup os (beforeEq ['-', '=']) = none := h.lookup_none.2 fun a ha => by
            have : beforeEq ['-', '='] = ['-'] := by decide
            rw [this] at ha
            rcases h.shape _ ((h.names _ _).1 ha) with ⟨d, e, _⟩ | ⟨d, t, e, _⟩ <;> simp at e
          simp [this]
        · simp [afterEq, Ne.symm h1]
      rw [hb, hcand, hl]
      rfl
  | cons d cs =>
    have hl0 : optLookup os ('-' :: c :: d :: cs) = none := h.lookup_none.2 fun a ha => by
      rcases h.shape _ ((h.names _ _).1 ha) with ⟨d, e, _⟩ | ⟨d, t, e, _⟩
      · simp at e
      · simp only [List.cons.injEq, true_and] at e; exact hc e.1
    rw [hl0]
    simp only
    have hbe : ∀ a, ((afterEq ('-' :: c :: d :: cs)).bind fun _ => optLookup os (beforeEq ('-' :: c :: d :: cs))) = some a ↔ N ['-', c] a ∧ d = '=' := by
      intro a
      constructor
      · intro h1
        obtain ⟨_, _, h2⟩ := Option.bind_eq_some_iff.1 h1
        have h2 := h.lookup.1 h2
        by_cases hce : c = '='
        · subst hce
          have : beforeEq ('-' :: '=' :: d :: cs) = ['-'] := by simp [beforeEq]
          rw [this] at h2
          rcases h.shape _ ((h.names _ _).1 h2) with ⟨d, e, _⟩ | ⟨d, t, e, _⟩ <;> simp at e
        · by_cases hde : d = '='
          · subst hde
            have : beforeEq ('-' :: c :: '=' :: cs) = ['-', c] := by simp [beforeEq, hce]
            exact ⟨this ▸ h2, rfl⟩
          · have : beforeEq ('-' :: c :: d :: cs) = '-' :: c :: d :: cs.takeWhile (· ≠ '=') := by simp [beforeEq, hce, hde]
            rw [this] at h2
            rcases h.shape _ ((h.names _ _).1 h2) with ⟨d, e, _⟩ | ⟨d, t, e, _⟩
            · simp at e
            · simp only [List.cons.injEq, true_and] at e; exact absurd e.1 hc
      · rintro ⟨h1, rfl⟩
        have hce := (h.short h1).2
        have e1 : beforeEq ('-' :: c :: '=' :: cs) = ['-', c] := by simp [beforeEq, hce]
        simp only [afterEq, List.mem_cons, true_or, or_true, if_true, Option.bind_some, e1]
        exact h.lookup.2 h1
    cases hl : optLookup os ['-', c] with
    | some a =>
      have hN := h.lookup.1 hl
      have hce := (h.short hN).2
      simp only
      by_cases hd : d = '='
      · rw [(hbe a).2 ⟨hN, hd⟩, if_pos hd]
        subst hd
        have : afterEq ('-' :: c :: '=' :: cs) = some cs := by simp [afterEq, hce]
        simp [this, hc]
      · have : ((afterEq ('-' :: c :: d :: cs)).bind fun _ => optLookup os (beforeEq ('-' :: c :: d :: cs))) = none :=
          Option.eq_none_iff_forall_not_mem.2 fun b hb => hd ((hbe b).1 hb).2
        rw [this, hcand, hl, if_neg hd]
    | none =>
      have : ((afterEq ('-' :: c :: d :: cs)).bind fun _ => optLookup os (beforeEq ('-' :: c :: d :: cs))) = none :=
        Option.eq_none_iff_forall_not_mem.2 fun b hb => h.lookup_none.1 hl b ((hbe b).1 hb).1
      rw [this, hcand, hl]
      rfl

theorem beforeEq_self {w : Str} (h : '=' ∉ w) : beforeEq w = w ∧ afterEq w = none := by
  refine ⟨takeWhile_every fun c hc => ?_, by simp [afterEq, h]⟩
  simp only [ne_eq, decide_not, Bool.not_eq_eq_eq_not, Bool.not_true, decide_eq_false_iff_not]
  exact fun e => h (e ▸ hc)

/-- The words with two dashes. -/
theorem Tidy.classify_long (h : Tidy os N) (t : Str) :
    classify os ('-' :: '-' :: t) = match optLookup os (beforeEq ('-' :: '-' :: t)) with
      | some a => .opt a true (afterEq ('-' :: '-' :: t))
      | none => match os.filter (fun o => (beforeEq ('-' :: '-' :: t)).isPrefixOf o.1) with
        | [] => plainWord ('-' :: '-' :: t)
        | [o] => .opt o.2 true (afterEq ('-' :: '-' :: t))
        | _ => .ambiguous := by
  have hcand : optCandidates os ('-' :: '-' :: t) = (os.filter fun o => (beforeEq ('-' :: '-' :: t)).isPrefixOf o.1).map fun o => Word.opt o.2 true (afterEq ('-' :: '-' :: t)) :=
    filterMap_if (fun o : Str × α => (beforeEq ('-' :: '-' :: t)).isPrefixOf o.1) (fun o => Word.opt o.2 true (afterEq ('-' :: '-' :: t))) os
  unfold classify
  simp only [ne_eq, not_true_eq_false, if_false, reduceCtorEq, List.head?_cons, decide_true]
  rw [hcand]
  by_cases hq : '=' ∈ ('-' :: '-' :: t)
  · have h0 : optLookup os ('-' :: '-' :: t) = none := h.lookup_none.2 fun a ha => h.noeq ha hq
    rw [h0]
    have ha : afterEq ('-' :: '-' :: t) = some ((('-' :: '-' :: t).dropWhile (· ≠ '=')).drop 1) := by rw [afterEq, if_pos hq]
    rw [ha]
    simp only [Option.bind_some]
    cases optLookup os (beforeEq ('-' :: '-' :: t)) with
    | some a => rfl
    | none =>
      simp only
      generalize os.filter (fun o => (beforeEq ('-' :: '-' :: t)).isPrefixOf o.1) = L
      rcases L with _ | ⟨o, _ | ⟨o', l⟩⟩ <;> rfl
  · obtain ⟨e1, e2⟩ := beforeEq_self hq
    rw [e1, e2]
    cases optLookup os ('-' :: '-' :: t) with
    | some a => rfl
    | none =>
      simp only [Option.bind_none]
      generalize os.filter (fun o => ('-' :: '-' :: t).isPrefixOf o.1) = L
      rcases L with _ | ⟨o, _ | ⟨o', l⟩⟩ <;> rfl

theorem Tidy.filter_one (h : Tidy os N) {b : Str} {o : Str × α} :
    os.filter (fun o => b.isPrefixOf o.1) = [o] ↔ N o.1 o.2 ∧ b <+: o.1 ∧ ∀ m a, N m a → b <+: m → m = o.1 := by
  constructor
  · intro e
    have hm : o ∈ os.filter (fun o => b.isPrefixOf o.1) := by rw [e]; simp
    obtain ⟨h1, h2⟩ := List.mem_filter.1 hm
    refine ⟨(h.names _ _).2 h1, List.isPrefixOf_iff_prefix.1 h2, fun m a hm hb => ?_⟩
    have : (m, a) ∈ os.filter (fun o => b.isPrefixOf o.1) := List.mem_filter.2 ⟨(h.names _ _).1 hm, List.isPrefixOf_iff_prefix.2 hb⟩
    rw [e] at this
    have := List.mem_singleton.1 this
    rw [← this]
  · rintro ⟨h1, h2, h3⟩
    have hm := (h.names _ _).1 h1
    have := filterMap_pair (p := fun o : Str × α => b.isPrefixOf o.1 = true) (f := fun o => o) o hm (List.isPrefixOf_iff_prefix.2 h2) h.nd
      fun y hy hp => List.inj_on_of_nodup_map h.nodup hy hm (h3 y.1 y.2 ((h.names _ _).2 hy) (List.isPrefixOf_iff_prefix.1 hp))
    rw [filterMap_if (fun o : Str × α => b.isPrefixOf o.1) (fun o => o) os] at this
    simpa using this

/-- What a long word gives. -/
theorem Tidy.long_iff (h : Tidy os N) {t : Str} {a : α} {long : Bool} {v : Option Str} :
    classify os ('-' :: '-' :: t) = .opt a long v ↔ NameOf N (beforeEq ('-' :: '-' :: t)) a ∧ long = true ∧ v = afterEq ('-' :: '-' :: t) := by
  have hdash : "--".toList <+: beforeEq ('-' :: '-' :: t) := ⟨t.takeWhile (· ≠ '='), by simp [beforeEq]⟩
  rw [h.classify_long]
  cases hl : optLookup os (beforeEq ('-' :: '-' :: t)) with
  | some b =>
    have hb := h.lookup.1 hl
    simp only [Word.opt.injEq]
    constructor
    · rintro ⟨rfl, rfl, rfl⟩
      exact ⟨.inl hb, rfl, rfl⟩
    · rintro ⟨ha | ha, rfl, rfl⟩
      · exact ⟨Option.some.inj ((h.lookup.2 hb).symm.trans (h.lookup.2 ha)), rfl, rfl⟩
      · exact absurd hb (ha.2.1 b)
  | none =>
    have hb := h.lookup_none.1 hl
    simp only
    have key : NameOf N (beforeEq ('-' :: '-' :: t)) a ↔ ∃ n, os.filter (fun o => (beforeEq ('-' :: '-' :: t)).isPrefixOf o.1) = [(n, a)] := by
      constructor
      · rintro (ha | ⟨_, _, n, h1, h2, h3⟩)
        · exact absurd ha (hb a)
        · exact ⟨n, h.filter_one.2 ⟨h1, h2, h3⟩⟩
      · rintro ⟨n, e⟩
        obtain ⟨h1, h2, h3⟩ := h.filter_one.1 e
        exact .inr ⟨hdash, hb, n, h1, h2, h3⟩
    rw [key]
    cases hf : os.filter (fun o => (beforeEq ('-' :: '-' :: t)).isPrefixOf o.1) with
    | nil =>
      simp only [plainWord]
      constructor
      · intro e; split at e <;> [skip; split at e] <;> simp at e
      · rintro ⟨⟨n, e⟩, _⟩; simp at e
    | cons o l =>
      cases l with
      | nil =>
        simp only [Word.opt.injEq, List.cons.injEq, and_true]
        constructor
        · rintro ⟨rfl, rfl, rfl⟩; exact ⟨⟨o.1, rfl⟩, rfl, rfl⟩
        · rintro ⟨⟨n, rfl⟩, rfl, rfl⟩; exact ⟨rfl, rfl, rfl⟩
      | cons o' l => simp

theorem Tidy.letters_iff (h : Tidy os N) : ∀ (cs : List Char) (a : α) (es : List (α × Option Str)),
    optLetters os tk a cs = some es ↔ ∃ es', es = (a, none) :: es' ∧ LettersOf N (fun a => tk a = true) cs es'
  | [], a, es => by
    simp only [optLetters, reduceCtorEq, false_iff, not_exists, not_and]
    intro es' _ hl
    cases hl
  | c :: e, a, es => by
    rw [optLetters]
    cases hl : optLookup os ['-', c] with
    | none =>
      simp only [reduceCtorEq, false_iff, not_exists, not_and]
      intro es' _ hx
      have := h.lookup_none.1 hl
      cases hx with
      | last h1 => exact this _ h1
      | flag h1 => exact this _ h1
      | value h1 => exact this _ h1
    | some b =>
      have hb := h.lookup.1 hl
      have hu : ∀ {x}, N ['-', c] x → x = b := fun hx => Option.some.inj ((h.lookup.2 hx).symm.trans hl)
      simp only
      cases e with
      | nil =>
        simp only [if_true, Option.some.injEq]
        constructor
        · rintro rfl; exact ⟨_, rfl, .last hb⟩
        · rintro ⟨es', rfl, hx⟩
          cases hx with
          | last h1 => rw [hu h1]
      | cons d e =>
        rw [if_neg (by simp)]
        by_cases ht : tk b = true
        · rw [if_pos ht]
          simp only [Option.some.injEq]
          constructor
          · rintro rfl; exact ⟨_, rfl, .value hb ht⟩
          · rintro ⟨es', rfl, hx⟩
            cases hx with
            | flag h1 h2 => rw [hu h1] at h2; exact absurd ht h2
            | value h1 h2 => rw [hu h1]
        · rw [if_neg ht, Option.map_eq_some_iff]
          constructor
          · rintro ⟨es1, e1, rfl⟩
            obtain ⟨es2, rfl, h2⟩ := (h.letters_iff (d :: e) b es1).1 e1
            exact ⟨_, rfl, .flag hb ht h2⟩
          · rintro ⟨es', rfl, hx⟩
            cases hx with
            | flag h1 h2 h3 =>
              rw [hu h1]
              exact ⟨_, (h.letters_iff (d :: e) b _).2 ⟨_, rfl, h3⟩, rfl⟩
            | value h1 h2 => rw [hu h1] at h2; exact absurd h2 ht

/-- The options of a word. -/
theorem Tidy.gives_iff (h : Tidy os N) (w : Str) (es : List (α × Option Str)) :
    WordGives N (fun a => tk a = true) w es ↔ ∃ a long v, classify os w = .opt a long v ∧ optExpand os tk long a v = some es := by
  have hname : ∀ {n : Str} {a : α}, NameOf N n a → '=' ∉ n ∧ ((∃ c, c ≠ '-' ∧ c ≠ '=' ∧ n = ['-', c] ∧ N n a) ∨ ∃ t, n = '-' :: '-' :: t) := by
    rintro n a (hn | ⟨hd, _, m, hm, hp, _⟩)
    · refine ⟨h.noeq hn, ?_⟩
      rcases h.shape _ ((h.names _ _).1 hn) with ⟨d, e, h1, h2⟩ | ⟨d, t, e, h1⟩
      · exact .inl ⟨d, h1, h2, e, hn⟩
      · exact .inr ⟨_, e⟩
    · refine ⟨fun hq => h.noeq hm (hp.subset hq), .inr ?_⟩
      obtain ⟨t, rfl⟩ := hd
      exact ⟨t, rfl⟩
  constructor
  · intro hw
    cases hw with
    | name hn =>
      rename_i a
      obtain ⟨hq, ⟨c, hc, _, rfl, hn'⟩ | ⟨t, rfl⟩⟩ := hname hn
      · exact ⟨a, false, none, by rw [h.classify_short hc, h.lookup.2 hn'], rfl⟩
      · refine ⟨a, true, none, h.long_iff.2 ⟨?_, rfl, (beforeEq_self hq).2.symm⟩, rfl⟩
        rw [(beforeEq_self hq).1]; exact hn
    | equals hn ht =>
      rename_i a n v
      obtain ⟨hq, ⟨c, hc, _, rfl, hn'⟩ | ⟨t, rfl⟩⟩ := hname hn
      · refine ⟨a, false, some v, ?_, by simp [optExpand, ht]⟩
        show classify os ('-' :: c :: '=' :: v) = _
        rw [h.classify_short hc, h.lookup.2 hn']
        simp
      · refine ⟨a, true, some v, ?_, by simp [optExpand, ht]⟩
        have := (h.long_iff (t := t ++ '=' :: v) (a := a) (long := true) (v := some v)).2
        refine this ⟨?_, rfl, (afterEq_append hq).symm⟩
        have e := beforeEq_append (v := v) hq
        simp only [List.cons_append] at e
        rw [e]; exact hn
    | letters hl hd =>
      rename_i c d cs
      have hc : ∃ b, N ['-', c] b := by cases hl <;> exact ⟨_, by assumption⟩
      obtain ⟨b, hb⟩ := hc
      refine ⟨b, false, some (d :: cs), ?_, ?_⟩
      · rw [h.classify_short (h.short hb).1, h.lookup.2 hb]
        simp [hd]
      · have hu : ∀ {x}, N ['-', c] x → x = b := fun hx => Option.some.inj ((h.lookup.2 hx).symm.trans (h.lookup.2 hb))
        cases hl with
        | flag h1 h2 h3 =>
          rw [hu h1] at h2 ⊢
          simp only [optExpand, if_neg h2]
          exact (h.letters_iff _ _ _).2 ⟨_, rfl, h3⟩
        | value h1 h2 =>
          rw [hu h1] at h2 ⊢
          simp only [optExpand, if_pos h2]
    | slip hn ht hl =>
      rename_i a c cs es
      refine ⟨a, false, some cs, ?_, ?_⟩
      · rw [h.classify_short (h.short hn).1, h.lookup.2 hn]
        simp
      · simp only [optExpand, if_neg ht]
        exact (h.letters_iff _ _ _).2 ⟨_, rfl, hl⟩
  · rintro ⟨a, long, v, hc, he⟩
    match w, hc with
    | [], hc => simp [classify] at hc
    | d :: t, hc =>
      by_cases hd : d = '-'
      · subst hd
        match t, hc with
        | [], hc =>
          have : classify os ['-'] = .arg := by
            unfold classify
            have h0 : optLookup os ['-'] = none := h.lookup_none.2 fun a ha => by
              rcases h.shape _ ((h.names _ _).1 ha) with ⟨d, e, _⟩ | ⟨d, t, e, _⟩ <;> simp at e
            simp [h0]
          rw [this] at hc; cases hc
        | c :: t, hc =>
          by_cases hc' : c = '-'
          · subst hc'
            obtain ⟨h1, rfl, h3⟩ := h.long_iff.1 hc
            by_cases hq : '=' ∈ ('-' :: '-' :: t)
            · obtain ⟨u, hu⟩ := eq_split hq
              have hv : v = some u := by
                have : afterEq ('-' :: '-' :: t) = some u := by
                  conv_lhs => rw [hu]
                  exact afterEq_append (beforeEq_no _)
                rw [h3, this]
              subst hv
              by_cases ht : tk a = true
              · simp only [optExpand, if_pos ht, Option.some.injEq] at he
                subst he
                rw [hu]
                exact .equals h1 ht
              · simp [optExpand, ht] at he
            · obtain ⟨e1, e2⟩ := beforeEq_self hq
              rw [e1] at h1
              rw [h3, e2] at he
              simp only [optExpand, Option.some.injEq] at he
              subst he
              exact .name h1
          · rw [h.classify_short hc'] at hc
            cases hl : optLookup os ['-', c] with
            | none =>
              rw [hl] at hc
              simp only [plainWord] at hc
              split at hc <;> [skip; split at hc] <;> simp at hc
            | some b =>
              rw [hl] at hc
              have hb := h.lookup.1 hl
              simp only [Word.opt.injEq] at hc
              obtain ⟨rfl, rfl, rfl⟩ := hc
              cases t with
              | nil =>
                simp only [optExpand, Option.some.injEq] at he
                subst he
                exact .name (.inl hb)
              | cons d cs =>
                by_cases hd : d = '='
                · subst hd
                  simp only [if_true] at he
                  by_cases ht : tk b = true
                  · simp only [optExpand, if_pos ht, Option.some.injEq] at he
                    subst he
                    exact WordGives.equals (n := ['-', c]) (.inl hb) ht
                  · simp only [optExpand, if_neg ht, Bool.false_eq_true, if_false] at he
                    obtain ⟨es', rfl, hx⟩ := (h.letters_iff _ _ _).1 he
                    exact .slip hb ht hx
                · simp only [if_neg hd] at he
                  by_cases ht : tk b = true
                  · simp only [optExpand, if_pos ht, Option.some.injEq] at he
                    subst he
                    exact .letters (.value hb ht) hd
                  · simp only [optExpand, if_neg ht, Bool.false_eq_true, if_false] at he
                    obtain ⟨es', rfl, hx⟩ := (h.letters_iff _ _ _).1 he
                    exact .letters (.flag hb ht hx) hd
      · simp [classify, hd] at hc

theorem Tidy.dash (h : Tidy os N) : classify os ['-'] = .arg := by
  unfold classify
  have h0 : optLookup os ['-'] = none := h.lookup_none.2 fun a ha => by
    rcases h.shape _ ((h.names _ _).1 ha) with ⟨d, e, _⟩ | ⟨d, t, e, _⟩ <;> simp at e
  simp [h0]

theorem plainWord_arg (v : Str) : (plainWord v : Word α) = .arg ↔ NegNumber v ∨ ' ' ∈ v := by
  rw [← negLike_iff]
  unfold plainWord
  split
  · simp_all
  · split <;> simp_all

theorem Tidy.touch_short (h : Tidy os N) {c : Char} (hc : c ≠ '-') (t : Str) : TouchesName N ('-' :: c :: t) ↔ ∃ a, N ['-', c] a := by
  constructor
  · rintro ⟨n, a, hn, ⟨h1, h2⟩ | ⟨⟨u, hu⟩, _⟩⟩
    · have := short_take.1 ⟨h1, h2⟩
      exact ⟨a, this ▸ hn⟩
    · have hu : '-' :: '-' :: u = '-' :: c :: t := hu
      simp only [List.cons.injEq, true_and] at hu
      exact absurd hu.1.symm hc
  · rintro ⟨a, ha⟩
    exact ⟨_, a, ha, .inl ⟨rfl, t, rfl⟩⟩

theorem Tidy.part (h : Tidy os N) {n b v : Str} {a : α} (hn : N n a) (hb : b <+: n) (hv : v = b ∨ ∃ u, v = b ++ '=' :: u) : beforeEq v = b := by
  have hq : '=' ∉ b := fun hq => h.noeq hn (hb.subset hq)
  rcases hv with rfl | ⟨u, rfl⟩
  · exact (beforeEq_self hq).1
  · exact beforeEq_append hq

theorem part_of (v : Str) : v = beforeEq v ∨ ∃ u, v = beforeEq v ++ '=' :: u := by
  by_cases hq : '=' ∈ v
  · exact .inr (eq_split hq)
  · exact .inl (beforeEq_self hq).1.symm

theorem Tidy.touch_long (h : Tidy os N) (t : Str) : TouchesName N ('-' :: '-' :: t) ↔ ∃ n a, N n a ∧ beforeEq ('-' :: '-' :: t) <+: n := by
  constructor
  · rintro ⟨n, a, hn, ⟨h1, h2⟩ | ⟨_, b, hb, hv⟩⟩
    · exfalso
      have e := short_take.1 ⟨h1, h2⟩
      subst e
      exact (h.short hn).1 rfl
    · exact ⟨n, a, hn, by rw [h.part hn hb hv]; exact hb⟩
  · rintro ⟨n, a, hn, hb⟩
    exact ⟨n, a, hn, .inr ⟨⟨t, rfl⟩, _, hb, part_of _⟩⟩

/-- The words taken for arguments. -/
theorem Tidy.arg_iff (h : Tidy os N) (v : Str) : classify os v = .arg ↔ ArgWord N v := by
  match v with
  | [] => simp [classify, ArgWord]
  | d :: t =>
    by_cases hd : d = '-'
    · subst hd
      match t with
      | [] => exact ⟨fun _ => .inr (.inl rfl), fun _ => h.dash⟩
      | c :: t =>
        have hA : ArgWord N ('-' :: c :: t) ↔ ¬ TouchesName N ('-' :: c :: t) ∧ (NegNumber ('-' :: c :: t) ∨ ' ' ∈ ('-' :: c :: t)) := by
          unfold ArgWord
          constructor
          · rintro (h1 | h1 | h1)
            · simp at h1
            · have h1 : '-' :: c :: t = ['-'] := h1
              simp at h1
            · exact h1
          · exact fun h1 => .inr (.inr h1)
        rw [hA]
        by_cases hc : c = '-'
        · subst hc
          rw [h.classify_long, h.touch_long]
          cases hl : optLookup os (beforeEq ('-' :: '-' :: t)) with
          | some a =>
            simp only [reduceCtorEq, false_iff, not_and]
            exact fun h1 => absurd ⟨_, a, h.lookup.1 hl, List.prefix_rfl⟩ h1
          | none =>
            simp only
            have hf : os.filter (fun o => (beforeEq ('-' :: '-' :: t)).isPrefixOf o.1) = [] ↔ ¬ ∃ n a, N n a ∧ beforeEq ('-' :: '-' :: t) <+: n := by
              rw [List.filter_eq_nil_iff]
              constructor
              · rintro h1 ⟨n, a, hn, hp⟩
                exact h1 _ ((h.names _ _).1 hn) (List.isPrefixOf_iff_prefix.2 hp)
              · intro h1 o ho hp
                exact h1 ⟨o.1, o.2, (h.names _ _).2 ho, List.isPrefixOf_iff_prefix.1 hp⟩
            rw [← hf, ← plainWord_arg (α := α)]
            generalize os.filter (fun o => (beforeEq ('-' :: '-' :: t)).isPrefixOf o.1) = L
            rcases L with _ | ⟨o, _ | ⟨o', l⟩⟩ <;> simp
        · rw [h.classify_short hc, h.touch_short hc, ← plainWord_arg (α := α)]
          cases hl : optLookup os ['-', c] with
          | some a =>
            simp only [reduceCtorEq, false_iff, not_and]
            exact fun h1 => absurd ⟨a, h.lookup.1 hl⟩ h1
          | none =>
            have := h.lookup_none.1 hl
            simp [this]
    · simp [classify, ArgWord, hd]

/-- The ambiguous words. -/
theorem Tidy.two_iff (h : Tidy os N) (w : Str) : classify os w = .ambiguous ↔ TwoNames N w := by
  constructor
  · intro hc
    match w with
    | [] => simp [classify] at hc
    | d :: t =>
      by_cases hd : d = '-'
      · subst hd
        match t with
        | [] => rw [h.dash] at hc; cases hc
        | c :: t =>
          have hpl : ∀ v, (plainWord v : Word α) ≠ .ambiguous := fun v e => by
            unfold plainWord at e
            split at e <;> [skip; split at e] <;> simp at e
          by_cases hc' : c = '-'
          · subst hc'
            rw [h.classify_long] at hc
            cases hl : optLookup os (beforeEq ('-' :: '-' :: t)) with
            | some a => rw [hl] at hc; simp at hc
            | none =>
              rw [hl] at hc
              simp only at hc
              rcases hf : os.filter (fun o => (beforeEq ('-' :: '-' :: t)).isPrefixOf o.1) with _ | ⟨o, _ | ⟨o', l⟩⟩
              · rw [hf] at hc; exact absurd hc (hpl _)
              · rw [hf] at hc; simp at hc
              · have hsub : (o :: o' :: l).Sublist os := hf ▸ List.filter_sublist
                have hm : ∀ x ∈ o :: o' :: l, N x.1 x.2 ∧ beforeEq ('-' :: '-' :: t) <+: x.1 := fun x hx => by
                  have := List.mem_filter.1 (hf ▸ hx)
                  exact ⟨(h.names _ _).2 this.1, List.isPrefixOf_iff_prefix.1 this.2⟩
                have hne : o.1 ≠ o'.1 := by
                  have := (hsub.map (·.1)).nodup h.nodup
                  simp only [List.map_cons, List.nodup_cons, List.mem_cons, not_or] at this
                  exact this.1.1
                exact ⟨beforeEq ('-' :: '-' :: t), ⟨t.takeWhile (· ≠ '='), by simp [beforeEq]⟩, part_of _, h.lookup_none.1 hl, o.1, o'.1, o.2, o'.2, (hm o (by simp)).1, (hm o' (by simp)).1,
                  hne, (hm o (by simp)).2, (hm o' (by simp)).2⟩
          · rw [h.classify_short hc'] at hc
            cases hl : optLookup os ['-', c] with
            | some a => rw [hl] at hc; simp at hc
            | none => rw [hl] at hc; exact absurd hc (hpl _)
      · simp [classify, hd] at hc
  · rintro ⟨b, hb, hw, hno, n, m, a, a', hn, hm, hne, h1, h2⟩
    have hbe := h.part hn h1 hw
    obtain ⟨t, rfl⟩ : ∃ t, w = '-' :: '-' :: t := by
      obtain ⟨u, rfl⟩ := hb
      rcases hw with rfl | ⟨u', rfl⟩
      · exact ⟨u, rfl⟩
      · exact ⟨u ++ '=' :: u', rfl⟩
    rw [h.classify_long, hbe, h.lookup_none.2 hno]
    simp only
    have e1 : (n, a) ∈ os.filter (fun o => b.isPrefixOf o.1) := List.mem_filter.2 ⟨(h.names _ _).1 hn, List.isPrefixOf_iff_prefix.2 h1⟩
    have e2 : (m, a') ∈ os.filter (fun o => b.isPrefixOf o.1) := List.mem_filter.2 ⟨(h.names _ _).1 hm, List.isPrefixOf_iff_prefix.2 h2⟩
    rcases hf : os.filter (fun o => b.isPrefixOf o.1) with _ | ⟨o, _ | ⟨o', l⟩⟩
    · rw [hf] at e1; cases e1
    · rw [hf] at e1 e2
      have e1 := List.mem_singleton.1 e1
      have e2 := List.mem_singleton.1 e2
      exact absurd (congrArg Prod.fst (e1.trans e2.symm)) hne
    · rw [hf]

theorem LettersOf.shape {tk : α → Bool} {cs : List Char} {es : List (α × Option Str)} (h : LettersOf N (fun a => tk a = true) cs es) :
    (∀ e ∈ es, tk e.1 = true → e.2 ≠ none) ∨ ∃ es' a, es = es' ++ [(a, none)] ∧ tk a = true := by
  induction h with
  | @last a c h1 =>
    by_cases ht : tk a = true
    · exact .inr ⟨[], a, rfl, ht⟩
    · exact .inl fun e he => by rw [List.mem_singleton.1 he]; exact fun h => absurd h ht
  | @flag a c d cs es h1 h2 h3 ih =>
    rcases ih with ih | ⟨es', b, rfl, hb⟩
    · left
      intro e he
      rcases List.mem_cons.1 he with rfl | he
      · exact fun h => absurd h h2
      · exact ih e he
    · exact .inr ⟨(a, none) :: es', b, rfl, hb⟩
  | value h1 h2 =>
    left
    intro e he
    rw [List.mem_singleton.1 he]
    simp

theorem WordGives.shape {tk : α → Bool} {w : Str} {es : List (α × Option Str)} (h : WordGives N (fun a => tk a = true) w es) :
    (∀ e ∈ es, tk e.1 = true → e.2 ≠ none) ∨ ∃ es' a, es = es' ++ [(a, none)] ∧ tk a = true := by
  cases h with
  | @name a w h1 =>
    by_cases ht : tk a = true
    · exact .inr ⟨[], a, rfl, ht⟩
    · exact .inl fun e he => by rw [List.mem_singleton.1 he]; exact fun h => absurd h ht
  | equals h1 h2 =>
    left
    intro e he
    rw [List.mem_singleton.1 he]
    simp
  | letters h1 h2 => exact h1.shape
  | @slip a c cs es h1 h2 h3 =>
    rcases h3.shape with ih | ⟨es', b, rfl, hb⟩
    · left
      intro e he
      rcases List.mem_cons.1 he with rfl | he
      · exact fun h => absurd h h2
      · exact ih e he
    · exact .inr ⟨(a, none) :: es', b, rfl, hb⟩

theorem open_last (es : List (α × Option Str)) : (es.any fun e => tk e.1 && e.2.isNone) = false ↔ ∀ e ∈ es, tk e.1 = true → e.2 ≠ none := by
  rw [List.any_eq_false]
  constructor
  · intro h e he ht hn
    exact h e he (by rw [ht, hn]; rfl)
  · intro h e he hx
    rw [Bool.and_eq_true] at hx
    exact h e he hx.1 (by simpa using hx.2)

/-- The parser reads what the specification says. -/
theorem Tidy.leading_iff (h : Tidy os N) : ∀ (ws : List Str) (is : List (α × Str)) (rest : List Str),
    leading os tk ws = some (is, rest) ↔ ReadsAs N (fun a => tk a = true) ws is rest
  | [], is, rest => by
    rw [leading]
    constructor
    · intro e
      simp only [Option.some.injEq, Prod.mk.injEq] at e
      obtain ⟨rfl, rfl⟩ := e
      exact .nil
    · intro e; cases e; rfl
  | w :: ws, is, rest => by
    rw [leading]
    constructor
    · intro e
      cases hc : classify os w with
      | arg =>
        rw [hc] at e
        simp only [Option.some.injEq, Prod.mk.injEq] at e
        obtain ⟨rfl, rfl⟩ := e
        exact .rest ((h.arg_iff w).1 hc)
      | ambiguous => rw [hc] at e; cases e
      | unknown => rw [hc] at e; cases e
      | opt a long v =>
        rw [hc] at e
        simp only at e
        cases hx : optExpand os tk long a v with
        | none => rw [hx] at e; cases e
        | some es =>
          rw [hx] at e
          simp only at e
          have hg := (h.gives_iff (tk := tk) w es).2 ⟨a, long, v, hc, hx⟩
          split at e
          · rename_i hany
            rcases hg.shape with hs | ⟨es', b, rfl, hb⟩
            · rw [(open_last es).2 hs] at hany; cases hany
            · match ws, e with
              | [], e => cases e
              | x :: ws', e =>
                simp only at e
                cases hcx : classify os x with
                | arg =>
                  rw [hcx] at e
                  obtain ⟨⟨is', rest'⟩, e1, e2⟩ := Option.map_eq_some_iff.1 e
                  simp only [List.map_append, List.map_cons, List.map_nil, List.dropLast_concat, List.getLast?_append, List.getLast?_singleton, Option.some_or, Option.map_some,
                    Option.toList_some, Prod.mk.injEq, List.append_assoc, List.cons_append, List.nil_append] at e2
                  obtain ⟨rfl, rfl⟩ := e2
                  exact .value hg hb ((h.arg_iff x).1 hcx) ((h.leading_iff ws' is' rest').1 e1)
                | ambiguous => rw [hcx] at e; cases e
                | unknown => rw [hcx] at e; cases e
                | opt _ _ _ => rw [hcx] at e; cases e
          · rename_i hany
            have hs := (open_last es).1 (Bool.eq_false_iff.2 hany)
            obtain ⟨⟨is', rest'⟩, e1, e2⟩ := Option.map_eq_some_iff.1 e
            simp only [Prod.mk.injEq] at e2
            obtain ⟨rfl, rfl⟩ := e2
            exact .word hg hs ((h.leading_iff ws is' rest').1 e1)
    · intro e
      cases e with
      | rest hw => rw [(h.arg_iff w).2 hw]
      | @word _ _ _ es is' hg hs hr =>
        obtain ⟨a, long, v, hc, hx⟩ := (h.gives_iff (tk := tk) w es).1 hg
        rw [hc]
        simp only
        rw [hx]
        simp only
        rw [(open_last es).2 hs, (h.leading_iff ws is' rest).2 hr]
        rfl
      | @value _ x ws' _ es b is' hg hb hx' hr =>
        obtain ⟨a, long, v, hc, hx⟩ := (h.gives_iff (tk := tk) w _).1 hg
        rw [hc]
        simp only
        rw [hx]
        simp only
        have : ((es ++ [(b, none)]).any fun e => tk e.1 && e.2.isNone) = true := by simp [hb]
        rw [if_pos this, (h.arg_iff x).2 hx', (h.leading_iff ws' is' rest).2 hr]
        simp only [List.map_append, List.map_cons, List.map_nil, List.dropLast_concat, List.getLast?_append, List.getLast?_singleton, Option.some_or, Option.map_some,
          Option.toList_some, List.append_assoc, List.cons_append, List.nil_append]
        rfl

theorem Tidy.sure_word (h : Tidy os N) {w : Str} {es : List (α × Option Str)} (hg : WordGives N (fun a => tk a = true) w es) : classify os w ≠ .ambiguous := by
  obtain ⟨a, long, v, hc, _⟩ := (h.gives_iff (tk := tk) w es).1 hg
  rw [hc]; simp

theorem Tidy.sure (h : Tidy os N) {ws rest : List Str} {is : List (α × Str)} (hr : ReadsAs N (fun a => tk a = true) ws is rest) :
    (∀ w ∈ ws, classify os w ≠ .ambiguous) ↔ ∀ w ∈ rest, classify os w ≠ .ambiguous := by
  induction hr with
  | nil => rfl
  | rest _ => rfl
  | word hg _ _ ih => simp only [List.mem_cons, forall_eq_or_imp, h.sure_word hg, true_and, not_false_eq_true, ne_eq]; simpa using ih
  | value hg _ hv _ ih =>
    have := (h.arg_iff _).2 hv
    simp only [List.mem_cons, forall_eq_or_imp, h.sure_word hg, this, reduceCtorEq, true_and, not_false_eq_true, ne_eq]; simpa using ih

/-- A command line is accepted by the parser exactly if it can be read, and no word after the first argument is ambiguous. -/
theorem Tidy.parse_iff (h : Tidy os N) (ws : List Str) (is : List (α × Str)) (rest : List Str) :
    parseMain os tk ws = some (is, rest) ↔ ReadsAs N (fun a => tk a = true) ws is rest ∧ ∀ w ∈ rest, ¬ TwoNames N w := by
  have ha : (ws.any fun w => match classify os w with | .ambiguous => true | _ => false) = true ↔ ¬ ∀ w ∈ ws, classify os w ≠ .ambiguous := by
    simp only [List.any_eq_true, not_forall, ne_eq, not_not, exists_prop]
    constructor
    · rintro ⟨w, hw, e⟩
      refine ⟨w, hw, ?_⟩
      split at e
      · assumption
      · cases e
    · rintro ⟨w, hw, e⟩
      exact ⟨w, hw, by rw [e]⟩
  unfold parseMain
  constructor
  · intro e
    split at e
    · cases e
    · rename_i hn
      have hr := (h.leading_iff ws is rest).1 e
      refine ⟨hr, fun w hw ht => ?_⟩
      have hn := not_not.1 (mt ha.2 hn)
      exact (h.sure hr).1 hn w hw ((h.two_iff w).2 ht)
  · rintro ⟨hr, hw⟩
    rw [if_neg]
    · exact (h.leading_iff ws is rest).2 hr
    · refine fun hany => (ha.1 hany) ?_
      exact (h.sure hr).2 fun w hx e => hw w hx ((h.two_iff w).1 e)

end
end NDP.Cnfgen
