import Verif.Cnfgen.ToolLineProps
/-
  C102: which words name a transformation, exactly.  This is the part `-T ...` of the command line of `cnfgen` too.
-/
namespace NDP.Cnfgen
open NDP

/-! ### specification -/

/-- The option of the transformations other than `shuffle`. -/
def HelpName (n : Str) (f : Flag) : Prop := f = .help ∧ (n = "-h".toList ∨ n = "--help".toList)

/-- The options of the transformation `shuffle`. -/
def ShuffleFlagName (n : Str) : Flag → Prop
  | .help => n = "-h".toList ∨ n = "--help".toList
  | .noFlips => n = "-p".toList ∨ n = "--no-polarity-flips".toList
  | .noVars => n = "-v".toList ∨ n = "--no-variables-permutation".toList
  | .noClauses => n = "-c".toList ∨ n = "--no-clauses-permutation".toList
  | _ => False

/-- The words are flags and arguments, in any order. -/
inductive Mixed {α : Type} (N : Str → α → Prop) : List Str → List Str → List α → Prop
  | nil : Mixed N [] [] []
  | arg {w : Str} {ws as : List Str} {fs : List α} : ArgWord N w → Mixed N ws as fs → Mixed N (w :: ws) (w :: as) fs
  | word {w : Str} {ws as : List Str} {es : List (α × Option Str)} {fs : List α} : WordGives N (fun _ => False) w es → Mixed N ws as fs → Mixed N (w :: ws) as (es.map (·.1) ++ fs)

/-- At most one whole number. -/
inductive OneNumber : List Str → Option Int → Prop
  | default : OneNumber [] none
  | given {w : Str} {n : Int} : ArgWord HelpName w → parseInt w = some n → OneNumber [w] (some n)

/-- The words name the transformation. -/
inductive NamesTrans (env : CmdEnv) (seed : Option Str) : List Str → Option Trans → Prop
  | nothing : NamesTrans env seed [] none
  | none : NamesTrans env seed ["none".toList] (some .none)
  | flip : NamesTrans env seed ["flip".toList] (some .flip)
  | ite : NamesTrans env seed ["ite".toList] (some .ite)
  | shuffle {ws : List Str} {fs : List Flag} : Mixed ShuffleFlagName ws [] fs → Flag.help ∉ fs →
      NamesTrans env seed ("shuffle".toList :: ws) (some (.shuffle (decide (Flag.noFlips ∈ fs)) (decide (Flag.noVars ∈ fs)) (decide (Flag.noClauses ∈ fs)) (env.vs seed) (env.cs seed) (env.signs seed)))
  /-- `or 2`, or `or`: without a number 2 for `or` and `xor`, 3 for the others -/
  | or {n : Option Int} {ws : List Str} : OneNumber ws n → NamesTrans env seed ("or".toList :: ws) (some (.or (n.getD 2)))
  | xor {n : Option Int} {ws : List Str} : OneNumber ws n → NamesTrans env seed ("xor".toList :: ws) (some (.xor (n.getD 2)))
  | eq {n : Option Int} {ws : List Str} : OneNumber ws n → NamesTrans env seed ("eq".toList :: ws) (some (.eq (n.getD 3)))
  | neq {n : Option Int} {ws : List Str} : OneNumber ws n → NamesTrans env seed ("neq".toList :: ws) (some (.neq (n.getD 3)))
  | maj {n : Option Int} {ws : List Str} : OneNumber ws n → NamesTrans env seed ("maj".toList :: ws) (some (.maj (n.getD 3)))
  | one {n : Option Int} {ws : List Str} : OneNumber ws n → NamesTrans env seed ("one".toList :: ws) (some (.one (n.getD 3)))
  | lift {n : Option Int} {ws : List Str} : OneNumber ws n → NamesTrans env seed ("lift".toList :: ws) (some (.lift (n.getD 3)))
  /-- the transformations that are not modelled -/
  | other {name : Str} {ws : List Str} {T : Trans} : ArgWord HelpName name →
      name ∉ ["none", "flip", "ite", "shuffle", "or", "xor", "eq", "neq", "maj", "one", "lift"].map String.toList → env.otherT seed name ws = some T →
      NamesTrans env seed (name :: ws) (some T)

/-! ### proofs -/

section
variable {α : Type} {os : List (Str × α)} {N : Str → α → Prop}

theorem Tidy.gives_flags (h : Tidy os N) (w : Str) (es : List (α × Option Str)) :
    WordGives N (fun _ => False) w es ↔ ∃ a long v, classify os w = .opt a long v ∧ optExpand os (fun _ => false) long a v = some es := by
  have := h.gives_iff (tk := fun _ => false) w es
  simpa using this

theorem Tidy.mixed_iff (h : Tidy os N) : ∀ (ws as : List Str) (fs : List α), subWords os ws = some (as, fs) ↔ Mixed N ws as fs
  | [], as, fs => by
    rw [subWords]
    constructor
    · intro e
      simp only [Option.some.injEq, Prod.mk.injEq] at e
      obtain ⟨rfl, rfl⟩ := e
      exact .nil
    · intro e; cases e; rfl
  | w :: ws, as, fs => by
    rw [subWords]
    constructor
    · intro e
      cases hc : classify os w with
      | ambiguous => rw [hc] at e; cases e
      | unknown => rw [hc] at e; cases e
      | arg =>
        rw [hc] at e
        obtain ⟨⟨as', fs'⟩, e1, e2⟩ := Option.map_eq_some_iff.1 e
        simp only [Prod.mk.injEq] at e2
        obtain ⟨rfl, rfl⟩ := e2
        exact .arg ((h.arg_iff w).1 hc) ((h.mixed_iff ws as' _).1 e1)
      | opt a long v =>
        rw [hc] at e
        simp only at e
        cases hx : optExpand os (fun _ => false) long a v with
        | none => rw [hx] at e; cases e
        | some es =>
          rw [hx] at e
          obtain ⟨⟨as', fs'⟩, e1, e2⟩ := Option.map_eq_some_iff.1 e
          simp only [Prod.mk.injEq] at e2
          obtain ⟨rfl, rfl⟩ := e2
          exact .word ((h.gives_flags w es).2 ⟨a, long, v, hc, hx⟩) ((h.mixed_iff ws _ fs').1 e1)
    · intro e
      cases e with
      | arg h1 h2 => rw [(h.arg_iff w).2 h1, (h.mixed_iff ws _ _).2 h2]; rfl
      | word h1 h2 =>
        obtain ⟨a, long, v, hc, hx⟩ := (h.gives_flags w _).1 h1
        rw [hc]
        simp only [hx, (h.mixed_iff ws _ _).2 h2, Option.map_some]

end

theorem LettersOf.ne {α : Type} {N : Str → α → Prop} {tk : α → Prop} {cs : List Char} {es : List (α × Option Str)} (h : LettersOf N tk cs es) : es ≠ [] := by
  cases h <;> simp

theorem WordGives.ne {α : Type} {N : Str → α → Prop} {tk : α → Prop} {w : Str} {es : List (α × Option Str)} (h : WordGives N tk w es) : es ≠ [] := by
  cases h with
  | letters h _ => exact h.ne
  | _ => simp

theorem Mixed.words {α : Type} {N : Str → α → Prop} {ws as : List Str} (h : Mixed N ws as []) : ws = as ∧ ∀ w ∈ as, ArgWord N w := by
  generalize hf : ([] : List α) = fs at h
  induction h with
  | nil => simp
  | arg h1 _ ih => obtain ⟨rfl, h2⟩ := ih hf; exact ⟨rfl, by simpa using ⟨h1, h2⟩⟩
  | word h1 _ _ =>
    have := h1.ne
    simp at hf
    exact absurd hf.1 this

theorem mixed_args {α : Type} {N : Str → α → Prop} : ∀ {as : List Str}, (∀ w ∈ as, ArgWord N w) → Mixed N as as []
  | [], _ => .nil
  | _ :: _, h => .arg (h _ (by simp)) (mixed_args fun w hw => h w (by simp [hw]))

theorem help_mem (n : Str) (f : Flag) : HelpName n f ↔ (n, f) ∈ helpOptions := by
  cases f <;> simp [HelpName, helpOptions]

theorem flag_mem (n : Str) (f : Flag) : ShuffleFlagName n f ↔ (n, f) ∈ shuffleOptions := by
  cases f <;> simp [ShuffleFlagName, shuffleOptions, helpOptions] <;> exact or_comm

theorem help_tidy : Tidy helpOptions HelpName := ⟨help_mem, tidy_shape (by decide), by decide⟩
theorem flag_tidy : Tidy shuffleOptions ShuffleFlagName := ⟨flag_mem, tidy_shape (by decide), by decide⟩

theorem noArgs_help {ws : List Str} : (∃ fs, noArgs helpOptions ws = some fs) ↔ ws = [] := by
  constructor
  · rintro ⟨fs, e⟩
    unfold noArgs at e
    split at e
    · rename_i gs hs
      split at e
      · cases e
      · rename_i hh
        have hm := (help_tidy.mixed_iff _ _ _).1 hs
        have hall : ∀ {ws as : List Str} {gs : List Flag}, Mixed HelpName ws as gs → ∀ g ∈ gs, g = Flag.help := by
          intro ws as gs hm
          induction hm with
          | nil => simp
          | arg _ _ ih => exact ih
          | word h1 _ ih =>
            intro g hg
            rcases List.mem_append.1 hg with hg | hg
            · obtain ⟨⟨a, v⟩, he, rfl⟩ := List.mem_map.1 hg
              have hlet : ∀ {cs : List Char} {es : List (Flag × Option Str)}, LettersOf HelpName (fun _ => False) cs es → ∀ e ∈ es, e.1 = Flag.help := by
                intro cs es h
                induction h with
                | last h => simpa using h.1
                | flag h _ _ ih => simpa using ⟨h.1, fun a b hab => ih (a, b) hab⟩
                | value _ h => exact h.elim
              cases h1 with
              | name h =>
                rcases h with h | ⟨_, _, n, h, _⟩ <;> obtain ⟨rfl, _⟩ : _ ∧ _ := by simpa using he
                · exact h.1
                · exact h.1
              | equals _ h => exact h.elim
              | letters h _ => exact hlet h _ he
              | slip h _ h2 =>
                rcases List.mem_cons.1 he with he | he
                · obtain ⟨rfl, _⟩ := by simpa using he
                  exact h.1
                · exact hlet h2 _ he
            · exact ih g hg
        have : gs = [] := by
          cases gs with
          | nil => rfl
          | cons g gs => exact absurd (hall hm g (by simp) ▸ List.mem_cons_self) hh
        subst this
        exact hm.words.1
    · cases e
  · rintro rfl; exact ⟨_, rfl⟩

theorem noArgs_shuffle {ws : List Str} {fs : List Flag} : noArgs shuffleOptions ws = some fs ↔ Mixed ShuffleFlagName ws [] fs ∧ Flag.help ∉ fs := by
  rw [← flag_tidy.mixed_iff]
  unfold noArgs
  constructor
  · intro e
    split at e
    · rename_i gs hs
      split at e
      · cases e
      · rename_i hh
        obtain rfl := Option.some.inj e
        exact ⟨hs, hh⟩
    · cases e
  · rintro ⟨h1, h2⟩
    rw [h1]
    simp only [if_neg h2]

theorem optNumber_iff {ws : List Str} {n : Option Int} : optNumber ws = some n ↔ OneNumber ws n := by
  constructor
  · intro e
    unfold optNumber at e
    split at e
    · rename_i hs
      obtain rfl := Option.some.inj e
      obtain ⟨rfl, _⟩ := ((help_tidy.mixed_iff _ _ _).1 hs).words
      exact .default
    · rename_i w hs
      obtain ⟨rfl, h2⟩ := ((help_tidy.mixed_iff _ _ _).1 hs).words
      obtain ⟨i, h3, rfl⟩ := Option.map_eq_some_iff.1 e
      exact .given (h2 w (by simp)) h3
    · cases e
  · intro h
    unfold optNumber
    cases h with
    | default => rfl
    | given h1 h2 => 
      rw [(help_tidy.mixed_iff _ _ _).2 (mixed_args (as := [_]) (by simpa using h1))]
      simp only [h2, Option.map_some]

theorem help_one (w : Str) : ¬ TwoNames HelpName w := by
  rintro ⟨b, hb, _, _, n, m, a, a', ⟨_, hn⟩, ⟨_, hm⟩, hne, h1, h2⟩
  have long : ∀ k : Str, b <+: k → k = "-h".toList ∨ k = "--help".toList → k = "--help".toList := by
    intro k hk e
    rcases e with rfl | rfl
    · exact absurd (hb.trans hk) (by decide)
    · rfl
  exact hne ((long n h1 hn).trans (long m h2 hm).symm)

theorem help_parse (ws : List Str) : (∃ rest, parseMain helpOptions (fun _ => false) ws = some ([], rest)) ↔ ws = [] ∨ ∃ name args, ws = name :: args ∧ ArgWord HelpName name := by
  constructor
  · rintro ⟨rest, e⟩
    have hr := ((help_tidy.parse_iff ws [] rest).1 e).1
    generalize hi : ([] : List (Flag × Str)) = is at hr
    cases hr with
    | nil => exact .inl rfl
    | rest h => exact .inr ⟨_, _, rfl, h⟩
    | word h1 _ _ =>
      have := h1.ne
      simp at hi
      exact absurd hi.1 this
    | value => simp at hi
  · rintro (rfl | ⟨name, args, rfl, h⟩)
    · exact ⟨[], rfl⟩
    · exact ⟨_, (help_tidy.parse_iff _ [] _).2 ⟨.rest h, fun w _ => help_one w⟩⟩

theorem help_rest {ws rest : List Str} (e : parseMain helpOptions (fun _ => false) ws = some ([], rest)) : rest = ws := by
  have hr := ((help_tidy.parse_iff ws [] rest).1 e).1
  generalize hi : ([] : List (Flag × Str)) = is at hr
  cases hr with
  | nil => rfl
  | rest h => rfl
  | word h1 _ _ =>
    have := h1.ne
    simp at hi
    exact absurd hi.1 this
  | value => simp at hi

theorem tfam_find {name : Str} : (∀ t, TFam.all.find? (fun t => decide (t.name = name)) = some t ↔ t.name = name) ∧
    (TFam.all.find? (fun t => decide (t.name = name)) = none ↔ ∀ t : TFam, t.name ≠ name) := by
  have h : ∀ t : TFam, t.name = name → TFam.all.find? (fun t => decide (t.name = name)) = some t := by
    rintro t rfl; exact (tfam_names t).2.2.2.2.2
  refine ⟨fun t => ⟨fun e => by simpa using List.find?_some e, h t⟩, ?_⟩
  constructor
  · intro e t ht
    rw [h t ht] at e
    cases e
  · intro e
    rw [List.find?_eq_none]
    intro t _
    simpa using e t

/-- **C102** (which words name a transformation)  Exactly the words that `readTrans` accepts, and the transformation they name.  This is also what follows `-T` on the command line of `cnfgen`. -/
theorem C102_names_transformation (env : CmdEnv) (seed : Option Str) (ws : List Str) (T : Option Trans) : readTrans env seed ws = some T ↔ NamesTrans env seed ws T := by
  have hnone : readTrans env seed [] = some none := rfl
  by_cases hs : ws = [] ∨ ∃ name args, ws = name :: args ∧ ArgWord HelpName name
  · obtain ⟨rest, hp⟩ := (help_parse ws).2 hs
    obtain rfl := help_rest hp
    rcases hs with rfl | ⟨name, args, rfl, harg⟩
    · rw [hnone]
      constructor
      · intro e; obtain rfl := Option.some.inj e; exact .nothing
      · intro e; cases e; rfl
    · unfold readTrans
      rw [hp]
      simp only [ne_eq, not_true_eq_false, if_false]
      have hno : ∀ U : Trans, (noArgs helpOptions args).map (fun _ => some U) = some T ↔ args = [] ∧ T = some U := by
        intro U
        rw [Option.map_eq_some_iff]
        constructor
        · rintro ⟨fs, h1, h2⟩; exact ⟨noArgs_help.1 ⟨fs, h1⟩, h2.symm⟩
        · rintro ⟨h1, h2⟩
          obtain ⟨fs, h3⟩ := noArgs_help.2 h1
          exact ⟨fs, h3, h2.symm⟩
      split
      · subst_vars
        rw [hno]
        constructor
        · rintro ⟨rfl, rfl⟩; exact .none
        · intro e
          cases e with
          | none => exact ⟨rfl, rfl⟩
          | other _ h _ => exact absurd (by decide) h
      split
      · subst_vars
        rw [hno]
        constructor
        · rintro ⟨rfl, rfl⟩; exact .flip
        · intro e
          cases e with
          | flip => exact ⟨rfl, rfl⟩
          | other _ h _ => exact absurd (by decide) h
      split
      · subst_vars
        rw [hno]
        constructor
        · rintro ⟨rfl, rfl⟩; exact .ite
        · intro e
          cases e with
          | ite => exact ⟨rfl, rfl⟩
          | other _ h _ => exact absurd (by decide) h
      split
      · subst_vars
        rw [Option.map_eq_some_iff]
        constructor
        · rintro ⟨fs, h1, rfl⟩
          obtain ⟨h2, h3⟩ := noArgs_shuffle.1 h1
          exact .shuffle h2 h3
        · intro e
          cases e with
          | shuffle h1 h2 => exact ⟨_, noArgs_shuffle.2 ⟨h1, h2⟩, rfl⟩
          | other _ h _ => exact absurd (by decide) h
      rename_i n1 n2 n3 n4
      cases hf : TFam.all.find? fun t => decide (t.name = name) with
      | some t =>
        obtain rfl := (tfam_find.1 t).1 hf
        simp only
        rw [Option.map_eq_some_iff]
        constructor
        · rintro ⟨n, h1, rfl⟩
          have h2 := optNumber_iff.1 h1
          cases t
          · exact .or h2
          · exact .xor h2
          · exact .eq h2
          · exact .neq h2
          · exact .maj h2
          · exact .one h2
          · exact .lift h2
        · intro e
          generalize hw : t.name :: args = ws at e
          cases e with
          | other _ h _ => 
            obtain ⟨h1, rfl⟩ := List.cons.inj hw
            subst h1
            exact absurd (by cases t <;> decide) h
          | nothing => cases hw
          | none => exact absurd (List.cons.inj hw).1 n1
          | flip => exact absurd (List.cons.inj hw).1 n2
          | ite => exact absurd (List.cons.inj hw).1 n3
          | shuffle => exact absurd (List.cons.inj hw).1 n4
          | or h | xor h | eq h | neq h | maj h | one h | lift h =>
            obtain ⟨h1, rfl⟩ := List.cons.inj hw
            cases t <;> first | exact ⟨_, optNumber_iff.2 h, rfl⟩ | exact absurd h1 (by decide)
      | none =>
        have hx := tfam_find.2.1 hf
        simp only
        rw [Option.map_eq_some_iff]
        constructor
        · rintro ⟨U, h1, rfl⟩
          refine .other harg ?_ h1
          simp only [List.map_cons, List.map_nil, List.mem_cons, List.not_mem_nil, or_false, not_or]
          exact ⟨n1, n2, n3, n4, fun e => hx .or e.symm, fun e => hx .xor e.symm, fun e => hx .eq e.symm, fun e => hx .neq e.symm, fun e => hx .maj e.symm,
            fun e => hx .one e.symm, fun e => hx .lift e.symm⟩
        · intro e
          cases e with
          | other _ _ h => exact ⟨_, h, rfl⟩
          | none => exact absurd rfl n1
          | flip => exact absurd rfl n2
          | ite => exact absurd rfl n3
          | shuffle => exact absurd rfl n4
          | or => exact absurd rfl (hx .or)
          | xor => exact absurd rfl (hx .xor)
          | eq => exact absurd rfl (hx .eq)
          | neq => exact absurd rfl (hx .neq)
          | maj => exact absurd rfl (hx .maj)
          | one => exact absurd rfl (hx .one)
          | lift => exact absurd rfl (hx .lift)
  · have hl : readTrans env seed ws ≠ some T := by
      unfold readTrans
      intro e
      split at e
      · cases e
      · rename_i es rest hp
        split at e
        · cases e
        · rename_i he
          obtain rfl : es = [] := not_not.1 he
          exact hs ((help_parse ws).1 ⟨_, hp⟩)
    constructor
    · intro e; exact absurd e hl
    · intro e
      exfalso
      refine hs ?_
      cases e with
      | nothing => exact .inl rfl
      | other h _ _ => exact .inr ⟨_, _, rfl, h⟩
      | _ => exact .inr ⟨_, _, rfl, .inl (by decide)⟩

/-- **C102** (the text tools, exactly)  The words that make `dimacstransform` and `kthlist2pebbling` work, and what they ask for, in terms of the words alone. -/
theorem C102_text_exact (env : CmdEnv) (ws : List Str) (hd : "--".toList ∉ ws) (verbose : Bool) (k : Sink) (T : Option Trans) :
    textToolLine env ws = some (verbose, k, T) ↔ ∃ is rest, ReadsAs TextName WantsValue ws is rest ∧ (∀ w ∈ rest, ¬ TwoNames TextName w) ∧ FilesOk env is ∧
      NamesTrans env none rest T ∧ (verbose = true ↔ ¬ Given .quiet is) ∧ k = sinkAsked env is := by
  classical
  rw [C102_text_line env ws hd]
  have hv : ∀ is, verbose = decide (¬ Given .quiet is) ↔ (verbose = true ↔ ¬ Given .quiet is) := fun is => by
    cases verbose <;> simp
  simp only [C102_names_transformation, hv]

/-- The words name at most one transformation. -/
theorem C102_one_transformation {env : CmdEnv} {seed : Option Str} {ws : List Str} {T U : Option Trans} (h1 : NamesTrans env seed ws T) (h2 : NamesTrans env seed ws U) : T = U := by
  rw [← C102_names_transformation] at h1 h2
  exact Option.some.inj (h1.symm.trans h2)

/-- `shuffle -pv --no-c`. -/
example (env : CmdEnv) : NamesTrans env none ["shuffle".toList, "-pv".toList, "--no-c".toList] (some (.shuffle true true true (env.vs none) (env.cs none) (env.signs none))) := by
  have hc : ∀ b, ¬ ShuffleFlagName "--no-c".toList b := fun b => by rw [flag_mem]; cases b <;> decide
  have hu : ∀ (m : Str) (b : Flag), ShuffleFlagName m b → "--no-c".toList <+: m → m = "--no-clauses-permutation".toList := by
    intro m b h hw
    have hall : ∀ o ∈ shuffleOptions, "--no-c".toList <+: o.1 → o.1 = "--no-clauses-permutation".toList := by decide
    exact hall (m, b) ((flag_mem m b).1 h) hw
  have h1 : WordGives ShuffleFlagName (fun _ => False) "--no-c".toList [(Flag.noClauses, none)] :=
    .name (.inr ⟨by decide, hc, "--no-clauses-permutation".toList, .inr rfl, by decide, hu⟩)
  have h2 : WordGives ShuffleFlagName (fun _ => False) "-pv".toList [(Flag.noFlips, none), (Flag.noVars, none)] :=
    .letters (c := 'p') (d := 'v') (cs := []) (.flag (.inl rfl) (by simp) (.last (.inl rfl))) (by decide)
  have h3 : NamesTrans env none ("shuffle".toList :: _) (some (.shuffle _ _ _ (env.vs none) (env.cs none) (env.signs none))) :=
    .shuffle (.word h2 (.word h1 .nil)) (by decide)
  simpa using h3

/-- `xor 3` -/
example (env : CmdEnv) : NamesTrans env none ["xor".toList, "3".toList] (some (.xor 3)) := .xor (.given (.inl (by decide)) (by decide))

end NDP.Cnfgen
