import Verif.Cnfgen.MainClear
/-
  C96, exactly: which words after the name of a family over numbers are accepted, and the formula they ask for.
-/
namespace NDP.Cnfgen
open NDP

/-! ### specification -/

/-- The names of the options of a family: the documented ones, and `-h`. -/
def FamFlag (f : Fam) (n : Str) (fl : Flag) : Prop := (fl ∈ f.allowed ∨ fl = .help) ∧ (n = fl.word true ∨ n = fl.word false)

/-- At most one of `--total`, `--smart`, `--knuth2`, `--knuth3`. -/
def OneStyle (fs : List Flag) : Prop :=
  ∀ a ∈ fs, ∀ b ∈ fs, a ≠ b → a ∈ [Flag.total, .smart, .knuth2, .knuth3] → b ∉ [Flag.total, .smart, .knuth2, .knuth3]

/-- The documented request with these numbers and flags. -/
def requestOf (seed : Option Str) (f : Fam) (ns : List Int) (fs : List Flag) : Request :=
  ⟨(seed.map (GOpt.seed true)).toList, f, ns.map Item.number ++ fs.map (Item.flag true)⟩

/-! ### proofs -/

theorem LettersOf.names {α : Type} {N : Str → α → Prop} {tk : α → Prop} {cs : List Char} {es : List (α × Option Str)} (h : LettersOf N tk cs es) : ∀ e ∈ es, ∃ n, N n e.1 := by
  induction h with
  | last h => intro e he; obtain rfl := List.mem_singleton.1 he; exact ⟨_, h⟩
  | flag h _ _ ih =>
    intro e he
    rcases List.mem_cons.1 he with rfl | he
    · exact ⟨_, h⟩
    · exact ih e he
  | value h _ => intro e he; obtain rfl := List.mem_singleton.1 he; exact ⟨_, h⟩

theorem NameOf.name {α : Type} {N : Str → α → Prop} {w : Str} {a : α} (h : NameOf N w a) : ∃ n, N n a := by
  rcases h with h | ⟨_, _, n, h, _⟩
  · exact ⟨_, h⟩
  · exact ⟨_, h⟩

theorem WordGives.names {α : Type} {N : Str → α → Prop} {tk : α → Prop} {w : Str} {es : List (α × Option Str)} (h : WordGives N tk w es) : ∀ e ∈ es, ∃ n, N n e.1 := by
  intro e he
  cases h with
  | name h => obtain rfl := List.mem_singleton.1 he; exact h.name
  | equals h _ => obtain rfl := List.mem_singleton.1 he; exact h.name
  | letters h _ => exact h.names e he
  | slip h _ h2 =>
    rcases List.mem_cons.1 he with rfl | he
    · exact ⟨_, h⟩
    · exact h2.names e he

theorem Mixed.names {α : Type} {N : Str → α → Prop} {ws as : List Str} {fs : List α} (h : Mixed N ws as fs) : ∀ f ∈ fs, ∃ n, N n f := by
  induction h with
  | nil => simp
  | arg _ _ ih => exact ih
  | word h1 _ ih =>
    intro g hg
    rcases List.mem_append.1 hg with hg | hg
    · obtain ⟨e, he, rfl⟩ := List.mem_map.1 hg
      exact h1.names e he
    · exact ih g hg

theorem fam_table (f : Fam) : (∀ o ∈ f.options, (o.2 ∈ f.allowed ∨ o.2 = .help) ∧ (o.1 = o.2.word true ∨ o.1 = o.2.word false)) ∧
    ∀ fl ∈ Flag.help :: f.allowed, (fl.word true, fl) ∈ f.options ∧ (fl.word false, fl) ∈ f.options := by
  cases f <;> decide +kernel

theorem fam_mem (f : Fam) (n : Str) (fl : Flag) : FamFlag f n fl ↔ (n, fl) ∈ f.options := by
  constructor
  · rintro ⟨h1, h2⟩
    have := (fam_table f).2 fl (by rcases h1 with h | rfl <;> simp [*])
    rcases h2 with rfl | rfl
    · exact this.1
    · exact this.2
  · intro h
    exact (fam_table f).1 _ h

theorem fam_tidy (f : Fam) : Tidy f.options (FamFlag f) := ⟨fam_mem f, tidy_shape (by cases f <;> decide +kernel), by cases f <;> simp [Fam.options, helpOptions]⟩

theorem mapOpt_forall₂ : ∀ (as : List Str) (ns : List Int), mapOpt parseInt as = some ns ↔ List.Forall₂ (fun w n => parseInt w = some n) as ns
  | [], ns => by
    rw [mapOpt, List.forall₂_nil_left_iff]
    constructor
    · intro e; exact (Option.some.inj e).symm
    · rintro rfl; rfl
  | w :: as, ns => by
    rw [mapOpt, List.forall₂_cons_left_iff]
    constructor
    · intro e
      cases hp : parseInt w with
      | none => rw [hp] at e; simp at e
      | some i =>
        cases hq : mapOpt parseInt as with
        | none => rw [hp, hq] at e; simp at e
        | some js =>
          rw [hp, hq] at e
          obtain rfl : i :: js = ns := by simpa using e
          exact ⟨i, js, rfl, (mapOpt_forall₂ as js).1 hq, rfl⟩
    · rintro ⟨i, js, h1, h2, rfl⟩
      rw [h1, (mapOpt_forall₂ as js).2 h2]

theorem requestOf_parts (seed : Option Str) (hs : seed ≠ some []) (f : Fam) (ns : List Int) (fs : List Flag) :
    numbersOf (requestOf seed f ns fs).items = ns ∧ flagsOf (requestOf seed f ns fs).items = fs ∧ (requestOf seed f ns fs).seed = seed := by
  refine ⟨by simp [requestOf, numbersOf, List.filterMap_append, List.filterMap_map], by simp [requestOf, flagsOf, List.filterMap_append, List.filterMap_map], ?_⟩
  unfold requestOf Request.seed
  cases seed with
  | none => rfl
  | some s =>
    have : s ≠ [] := fun e => hs (by rw [e])
    simp [this]

theorem oneStyle_exclusive {fs : List Flag} : exclusive fs = true ↔ OneStyle fs := by
  unfold exclusive
  rw [decide_eq_true_eq]
  constructor
  · intro hx a ha b hb hne ha4 hb4
    have ha5 : a ∈ [Flag.total, .smart, .knuth2, .knuth3].filter fun f => decide (f ∈ fs) := List.mem_filter.2 ⟨ha4, by simpa using ha⟩
    have hb5 : b ∈ [Flag.total, .smart, .knuth2, .knuth3].filter fun f => decide (f ∈ fs) := List.mem_filter.2 ⟨hb4, by simpa using hb⟩
    generalize ([Flag.total, .smart, .knuth2, .knuth3].filter fun f => decide (f ∈ fs)) = l at hx ha5 hb5
    match l, hx, ha5, hb5 with
    | [x], _, ha5, hb5 => exact hne ((List.mem_singleton.1 ha5).trans (List.mem_singleton.1 hb5).symm)
  · intro h
    have hnd : ([Flag.total, .smart, .knuth2, .knuth3].filter fun f => decide (f ∈ fs)).Nodup := List.Nodup.filter _ (by decide)
    have hm : ∀ a ∈ [Flag.total, .smart, .knuth2, .knuth3].filter fun f => decide (f ∈ fs), a ∈ [Flag.total, .smart, .knuth2, .knuth3] ∧ a ∈ fs := by
      intro a ha
      have := List.mem_filter.1 ha
      exact ⟨this.1, by simpa using this.2⟩
    generalize ([Flag.total, .smart, .knuth2, .knuth3].filter fun f => decide (f ∈ fs)) = l at hnd hm
    match l, hnd, hm with
    | [], _, _ => simp
    | [_], _, _ => simp
    | a :: b :: _, hnd, hm =>
      obtain ⟨h1, h2⟩ := hm a (by simp)
      obtain ⟨h3, h4⟩ := hm b (by simp)
      have hne : a ≠ b := fun e => by subst e; simp at hnd
      exact absurd h3 (h a h2 b h4 hne h1)

/-- **C96** (exactly)  After the name of a family exactly those words are accepted that are its flags (not `-h`, at most one style) and whole numbers in any order, as many as the
formula needs; and the formula is the one asked for. -/
theorem C96_exact {env : CmdEnv} {seed : Option Str} (hs : seed ≠ some []) (f : Fam) (ws : List Str) (_ : "--".toList ∉ ws) (c : ICmd) :
    subCommand env seed f.word ws = some c ↔
      ∃ as fs ns, Mixed (FamFlag f) ws as fs ∧ Flag.help ∉ fs ∧ OneStyle fs ∧ List.Forall₂ (fun w n => parseInt w = some n) as ns ∧ (requestOf seed f ns fs).Asks env c := by
  unfold subCommand
  rw [fam_word, find_fam]
  simp only
  constructor
  · intro h
    cases hw : subWords f.options ws with
    | none => rw [hw] at h; simp at h
    | some p =>
      obtain ⟨as, fs⟩ := p
      rw [hw] at h
      simp only at h
      split at h
      · simp at h
      rename_i hh
      cases hm : mapOpt parseInt as with
      | none => rw [hm] at h; simp at h
      | some ns =>
        rw [hm] at h
        simp only at h
        have hx : exclusive fs = true := by
          cases hx : exclusive fs
          · exact absurd (.inr hx) hh
          · rfl
        have hex := oneStyle_exclusive.1 hx
        obtain ⟨hN, hF, hseed⟩ := requestOf_parts seed hs f ns fs
        refine ⟨as, fs, ns, ((fam_tidy f).mixed_iff _ _ _).1 hw, fun hm => hh (.inl hm), hex, (mapOpt_forall₂ _ _).1 hm, ?_⟩
        unfold Request.Asks
        rw [hseed, hF, hN, show (requestOf seed f ns fs).fam = f from rfl]
        unfold Fam.command at h
        split at h
        case h_3 =>
          simp only [Option.some.injEq] at h
          refine ⟨_, h.symm, ?_, ?_, ?_⟩
          · intro k2; rw [if_pos k2]
          · intro k3
            rw [if_neg, if_pos k3]
            intro k2
            exact hex _ k2 _ k3 (by decide) (by decide) (by decide)
          · intro k2 k3; rw [if_neg k2, if_neg k3]
        case h_14 => simp at h
        all_goals
          simp only [Option.some.injEq] at h
          exact h.symm
  · rintro ⟨as, fs, ns, h1, h2, h3, h4, h5⟩
    obtain ⟨hN, hF, hseed⟩ := requestOf_parts seed hs f ns fs
    have := command_asks h5
    rw [hN, hF, hseed] at this
    rw [((fam_tidy f).mixed_iff _ _ _).2 h1]
    simp only
    rw [if_neg (by rw [oneStyle_exclusive.2 h3]; simpa using h2), (mapOpt_forall₂ _ _).2 h4]
    exact this

/-- `op -sp 5` -/
example (env : CmdEnv) : ∃ as fs ns c, Mixed (FamFlag .op) ["-sp".toList, "5".toList] as fs ∧ Flag.help ∉ fs ∧ OneStyle fs ∧ List.Forall₂ (fun w n => parseInt w = some n) as ns ∧
    (requestOf none .op ns fs).Asks env c := by
  refine ⟨["5".toList], [.smart, .plant], [5], .op 5 false true true 0, ?_, by decide, ?_, .cons (by decide) .nil, ?_⟩
  · have h1 : WordGives (FamFlag .op) (fun _ => False) "-sp".toList [(Flag.smart, none), (Flag.plant, none)] :=
      .letters (c := 's') (d := 'p') (cs := []) (.flag ⟨.inl (by decide), .inr rfl⟩ (by simp) (.last ⟨.inl (by decide), .inr rfl⟩)) (by decide)
    exact .word h1 (.arg (.inl (by decide)) .nil)
  · unfold OneStyle; decide
  · exact ⟨0, rfl, fun h => absurd h (by decide), fun h => absurd h (by decide), fun _ _ => rfl⟩

/-- The words are not those of a formula of the family. -/
def NoReading (env : CmdEnv) (f : Fam) (ws : List Str) : Prop :=
  ¬ ∃ as fs ns c, Mixed (FamFlag f) ws as fs ∧ Flag.help ∉ fs ∧ OneStyle fs ∧ List.Forall₂ (fun w n => parseInt w = some n) as ns ∧ (requestOf none f ns fs).Asks env c

theorem fam_main_arg (f : Fam) : classify mainOptions f.word = .arg := by cases f <;> decide +kernel

/-- **C96** (nothing is printed for words without a meaning)  If one of the parts after `-T` names no transformation, or the words after the name of the family are not those of a formula of
the family, a message is printed and no formula. -/
theorem C96_refused (env : CmdEnv) {f : Fam} {ws : List Str} {ts : List (List Str)} (hd : "--".toList ∉ ws) (hw : "-T".toList ∉ f.word :: ws) (ht : ∀ t ∈ ts, "-T".toList ∉ t)
    (h : NoReading env f ws ∨ ∃ t ∈ ts, ∀ T, ¬ NamesTrans env none t T) : cnfgenMain env (cmdLine (f.word :: ws) ts) = pure none := by
  have hlead : leading mainOptions MOpt.takes (f.word :: ws) = some ([], f.word :: ws) := by rw [leading, fam_main_arg]
  have hmain : parseMain mainOptions MOpt.takes (f.word :: ws) = none ∨ parseMain mainOptions MOpt.takes (f.word :: ws) = some ([], f.word :: ws) := by
    unfold parseMain
    split
    · exact .inl rfl
    · exact .inr hlead
  have hseed : runSeed (f.word :: ws) = none := by
    unfold runSeed
    rcases hmain with e | e <;> rw [e]
    rfl
  have hp : splitlist (cmdLine (f.word :: ws) ts) "-T".toList = ("cnfgen".toList :: f.word :: ws) :: ts := splitlist_cmdLine _ _ hw ht
  unfold cnfgenMain cnfgen
  simp only [hp, List.headD_cons, List.drop_succ_cons, List.drop_zero, List.tail_cons, hseed]
  rcases h with h | ⟨t, htm, hT⟩
  · have hsub : subCommand env none f.word ws = none := by
      cases e : subCommand env none f.word ws with
      | none => rfl
      | some c =>
        obtain ⟨as, fs, ns, h1⟩ := (C96_exact (by simp) f ws hd c).1 e
        exact absurd ⟨as, fs, ns, c, h1⟩ h
    have hr : readMain env (f.word :: ws) = none := by
      unfold readMain readLine
      rcases hmain with e | e <;> rw [e]
      simp [lastOf, hsub]
    rw [hr]
    simp
  · have hm : mapOpt (readTrans env none) ts = none := by
      induction ts with
      | nil => simp at htm
      | cons u ts ih =>
        rw [mapOpt]
        rcases List.mem_cons.1 htm with rfl | htm
        · have : readTrans env none t = none := by
            cases e : readTrans env none t with
            | none => rfl
            | some T => exact absurd ((C102_names_transformation env none t T).1 e) (hT T)
          rw [this]
        · cases readTrans env none u with
          | none => rfl
          | some U => rw [ih (fun t h => ht t (List.mem_cons_of_mem _ h)) (splitlist_cmdLine _ _ hw fun t h => ht t (List.mem_cons_of_mem _ h)) htm]
    rw [hm]
    split
    · rename_i h1 h2; cases h2
    · rfl

/-- `xor 1 2`: two numbers. -/
example (env : CmdEnv) : ∀ T, ¬ NamesTrans env none ["xor".toList, "1".toList, "2".toList] T := by
  intro T h
  rw [← C102_names_transformation] at h
  have e : readTrans env none ["xor".toList, "1".toList, "2".toList] = none := rfl
  rw [e] at h
  cases h

/-- `parity 3 4`: two numbers. -/
example (env : CmdEnv) : NoReading env .parity ["3".toList, "4".toList] := by
  rintro ⟨as, fs, ns, c, h⟩
  have e := (C96_exact (by simp) .parity _ (by decide) c).2 ⟨as, fs, ns, h⟩
  have e' : subCommand env none Fam.parity.word ["3".toList, "4".toList] = none := rfl
  rw [e'] at e
  cases e

/-- **C96** (any words)  The whole way from any words that can be read (abbreviations, letters joined, flags and numbers in any order), with documented general options before the family and
after each `-T` words that name a transformation: a message and nothing else exactly if a number is bad or there is no such formula, and otherwise a DIMACS formula that can be satisfied exactly if
the one asked for can.  No word may be the beginning of two of the general options (`--v`, `--o`), since those are refused wherever they stand. -/
theorem C96_words {env : CmdEnv} (he : env.Ok) {gen : List GOpt} (hg : GenOk gen) (f : Fam) {ws : List Str} (hd : "--".toList ∉ ws) (hc' : ∀ w ∈ ws, ¬ TwoNames GeneralName w) (hw : "-T".toList ∉ ws)
    {as : List Str} {fs : List Flag} {ns : List Int} {c : ICmd} (h1 : Mixed (FamFlag f) ws as fs) (h2 : Flag.help ∉ fs) (h3 : OneStyle fs)
    (h4 : List.Forall₂ (fun w n => parseInt w = some n) as ns) (h5 : (requestOf (genSeed gen) f ns fs).Asks env c) {ts : List (List Str)} (ht : ∀ t ∈ ts, "-T".toList ∉ t) {Ts : List Trans}
    (hT : List.Forall₂ (fun t T => NamesTrans env (genSeed gen) t (some T)) ts Ts) (hF : ∀ T ∈ Ts, T.Chance ∧ T.Faithful ∧ ¬ T.IsComp) :
    (cnfgenMain env (cmdLine (gen.flatMap GOpt.words ++ f.word :: ws) ts) = pure none ∧ (c.BadNumber ∨ c.floor.Answers none)) ∨
    (¬ c.BadNumber ∧ ∃ out n cs P, cnfgenMain env (cmdLine (gen.flatMap GOpt.words ++ f.word :: ws) ts) = pure (some out) ∧ Prints out n cs ∧ c.floor.Answers (some P) ∧
      (Spec.Satisfiable cs ↔ P)) := by
  have hc : ∀ w ∈ ws, Clear w := fun w h => (clear_iff w).2 (hc' w h)
  have hseed : genSeed gen ≠ some [] := by
    unfold genSeed
    intro e
    obtain ⟨s, _, e⟩ := Option.bind_eq_some_iff.1 e
    split at e
    · cases e
    · rename_i hn; exact hn (Option.some.inj e)
  have hname : classify mainOptions f.name = .arg := clear_name f
  have hNT : "-T".toList ∉ gen.flatMap GOpt.words ++ f.word :: ws := by
    intro hm
    rcases List.mem_append.1 hm with hm | hm
    · exact gen_noT hg hm
    · rcases List.mem_cons.1 hm with e | hm
      · revert e; cases f <;> decide
      · exact hw hm
  have hsub := (C96_exact hseed f ws hd c).2 ⟨as, fs, ns, h1, h2, h3, h4, h5⟩
  have hleg : c.floor.Legal := by
    unfold Request.Asks at h5
    split at h5
    case h_3 => obtain ⟨k, rfl, _⟩ := h5; trivial
    case h_2 => subst h5; exact he.bits _
    case h_7 => subst h5; exact fun z _ => he.isqrt z
    case h_9 => subst h5; exact fun hk => he.rnd _ _ _ hk
    case h_14 => exact absurd h5 id
    all_goals subst h5; trivial
  have hadd : ¬ c.floor.AddsEdges := by
    unfold Request.Asks at h5
    split at h5
    case h_3 => obtain ⟨k, rfl, _⟩ := h5; exact id
    case h_14 => exact absurd h5 id
    all_goals subst h5; exact id
  have hp : (fun ws => (readMain env ws).map (MainLine.args env)) (gen.flatMap GOpt.words ++ f.word :: ws) = some (c.args false (!genQuiet gen) (env.header c)) := by
    rw [fam_word] at hsub ⊢
    simp only [readMain_gen env hg hname hc, hsub, Option.map_some, MainLine.args, he.dash]
    rfl
  have hread : List.Forall₂ (fun t T => readTrans env (genSeed gen) t = some (some T)) ts Ts :=
    hT.imp fun t T h => (C102_names_transformation env _ t _).2 h
  have hsplit : ((splitlist (cmdLine (gen.flatMap GOpt.words ++ f.word :: ws) ts) "-T".toList).headD []).drop 1 = gen.flatMap GOpt.words ++ f.word :: ws := by
    rw [splitlist_cmdLine _ _ hNT ht]
    rfl
  have hrun : runSeed (gen.flatMap GOpt.words ++ f.word :: ws) = genSeed gen := by
    rw [fam_word]; exact runSeed_gen hg hname hc
  unfold cnfgenMain
  rw [hsplit, hrun]
  rcases C93_cnfgen hleg (fun ws => (readMain env ws).map (MainLine.args env)) (readTrans env (genSeed gen)) _ ts hNT ht (!genQuiet gen) (env.header c) hp hread hF with q | q | q
  · exact .inl q
  · exact .inr q
  · exact absurd q.2 hadd

/-- `op --sm 5 -T xor`: the hypotheses on the words. -/
example : ¬ TwoNames GeneralName "--sm".toList ∧ ¬ TwoNames GeneralName "5".toList ∧ WordGives (FamFlag .op) (fun _ => False) "--sm".toList [(Flag.smart, none)] := by
  refine ⟨(clear_iff _).1 (by unfold Clear; decide), (clear_iff _).1 (by unfold Clear; decide), .name (.inr ⟨by decide, ?_, "--smart".toList, ⟨.inl (by decide), .inl rfl⟩, by decide, ?_⟩)⟩
  · intro b; rw [fam_mem]; cases b <;> decide
  · intro m b h hw
    have hall : ∀ o ∈ Fam.options .op, "--sm".toList <+: o.1 → o.1 = "--smart".toList := by decide
    exact hall (m, b) ((fam_mem .op m b).1 h) hw

/-- **C96** (a word with two meanings)  A word that is the beginning of two general options is refused wherever it stands before the first `-T`, even as the abbreviation of a flag of the family. -/
theorem C96_two_meanings (env : CmdEnv) {ws : List Str} (hw : "-T".toList ∉ ws) {w : Str} (hm : w ∈ ws) (hc' : TwoNames GeneralName w) {ts : List (List Str)} (ht : ∀ t ∈ ts, "-T".toList ∉ t) :
    cnfgenMain env (cmdLine ws ts) = pure none := by
  have hp : parseMain mainOptions MOpt.takes ws = none := by
    unfold parseMain
    rw [if_pos]
    rw [List.any_eq_true]
    refine ⟨w, hm, ?_⟩
    rw [not_not.1 fun h => (clear_iff w).1 h hc']
  have hr : readMain env ws = none := by
    unfold readMain readLine
    rw [hp]
  unfold cnfgenMain cnfgen
  simp only [splitlist_cmdLine _ _ hw ht, List.headD_cons, List.drop_succ_cons, List.drop_zero, List.tail_cons]
  rw [hr]
  simp

/-- `cnfgen php 3 2 --o`: `--o` would be `--onto`, but `--output` and `--output-format` begin with it too. -/
example (env : CmdEnv) : cnfgenMain env (cmdLine ["php".toList, "3".toList, "2".toList, "--o".toList] []) = pure none :=
  C96_two_meanings env (by decide) (w := "--o".toList) (by simp) (not_not.1 fun h => absurd ((clear_iff _).2 h) (by unfold Clear; decide)) (by simp)

/-- While the sub-command alone takes `--o` for `--onto`. -/
example (env : CmdEnv) : subCommand env none "php".toList ["3".toList, "2".toList, "--o".toList] = some (.php 3 2 false true) := rfl

end NDP.Cnfgen
