import Verif.Cnfgen.Argparse
import Verif.Cnfgen.Provenance
import Verif.Proofs.GenText
/-
  C96: every documented command line for a family over numbers is understood as documented, and leads to the formula.
-/
namespace NDP.Cnfgen
open NDP

/-! ### Specification: documented command lines -/

/-- General options (`cnfgen --help`), with their long or short name; the standard output and DIMACS only. -/
inductive GOpt where
  | quiet (long : Bool) | verbose (long : Bool) | seed (long : Bool) (s : Str) | stdout (long : Bool) | dimacs (long : Bool)

def GOpt.words : GOpt → List Str
  | .quiet l => [if l then "--quiet".toList else "-q".toList]
  | .verbose l => [if l then "--verbose".toList else "-v".toList]
  | .seed l s => [if l then "--seed".toList else "-S".toList, s]
  | .stdout l => [if l then "--output".toList else "-o".toList, "-".toList]
  | .dimacs l => [if l then "--output-format".toList else "-of".toList, "dimacs".toList]

/-- The documented names of a flag. -/
def Flag.word (long : Bool) : Flag → Str
  | .help => if long then "--help".toList else "-h".toList
  | .functional => "--functional".toList
  | .onto => "--onto".toList
  | .total => if long then "--total".toList else "-t".toList
  | .smart => if long then "--smart".toList else "-s".toList
  | .knuth2 => "--knuth2".toList
  | .knuth3 => "--knuth3".toList
  | .plant => if long then "--plant".toList else "-p".toList
  | .noFlips => if long then "--no-polarity-flips".toList else "-p".toList
  | .noVars => if long then "--no-variables-permutation".toList else "-v".toList
  | .noClauses => if long then "--no-clauses-permutation".toList else "-c".toList

/-- What stands after the name of the family: numbers and flags, in any order. -/
inductive Item where
  | number (i : Int) | flag (long : Bool) (f : Flag)

def Item.word : Item → Str
  | .number i => intStr i
  | .flag l f => f.word l

def numbersOf (l : List Item) : List Int := l.filterMap fun | .number i => some i | _ => none
def flagsOf (l : List Item) : List Flag := l.filterMap fun | .flag _ f => some f | _ => none

/-- The flags of a family. -/
def Fam.allowed : Fam → List Flag
  | .php => [.functional, .onto]
  | .op => [.total, .smart, .knuth2, .knuth3, .plant]
  | _ => []

/-- The documented name of a family. -/
def Fam.word : Fam → Str
  | .php => "php".toList
  | .bphp => "bphp".toList
  | .op => "op".toList
  | .parity => "parity".toList
  | .count => "count".toList
  | .ram => "ram".toList
  | .ptn => "ptn".toList
  | .cliquecoloring => "cliquecoloring".toList
  | .randkcnf => "randkcnf".toList
  | .or => "or".toList
  | .and => "and".toList
  | .empty => "empty".toList
  | .emptyclause => "emptyclause".toList

/-- A command line for a formula. -/
structure Request where
  gen : List GOpt
  fam : Fam
  items : List Item

def Request.words (r : Request) : List Str := r.gen.flatMap GOpt.words ++ r.fam.word :: r.items.map Item.word

/-- Comments are written unless `--quiet` is given. -/
def Request.quiet (r : Request) : Bool := r.gen.any fun | .quiet _ => true | _ => false

/-- The seed that counts: the last one; the empty one is none. -/
def Request.seed (r : Request) : Option Str :=
  ((r.gen.filterMap fun | .seed _ s => some s | _ => none).getLast?).bind fun s => if s = [] then none else some s

/-- The documented rules: flags of the family only, at most one of `--total`, `--smart`, `--knuth2`, `--knuth3`; not both `--quiet` and `--verbose`; no seed that looks like an option. -/
structure Request.Ok (r : Request) : Prop where
  flags : ∀ f ∈ flagsOf r.items, f ∈ r.fam.allowed
  one : ∀ f ∈ flagsOf r.items, ∀ g ∈ flagsOf r.items, f ≠ g → f ∈ [Flag.total, .smart, .knuth2, .knuth3] → g ∉ [Flag.total, .smart, .knuth2, .knuth3]
  loud : ∀ a b, GOpt.quiet a ∈ r.gen → GOpt.verbose b ∉ r.gen
  seeds : ∀ a s, GOpt.seed a s ∈ r.gen → s.head? ≠ some '-'

/-- The formula that is asked for (the numbers are those of the documentation, in that order). -/
def Request.Asks (env : CmdEnv) (r : Request) (c : ICmd) : Prop :=
  match r.fam, numbersOf r.items with
  | .php, [pigeons, holes] => c = .php pigeons holes (decide (Flag.functional ∈ flagsOf r.items)) (decide (Flag.onto ∈ flagsOf r.items))
  | .bphp, [pigeons, holes] => c = .bphp pigeons holes (env.bits holes)
  | .op, [n] => ∃ k, c = .op n (decide (Flag.total ∈ flagsOf r.items)) (decide (Flag.smart ∈ flagsOf r.items)) (decide (Flag.plant ∈ flagsOf r.items)) k ∧
      (Flag.knuth2 ∈ flagsOf r.items → k = 2) ∧ (Flag.knuth3 ∈ flagsOf r.items → k = 3) ∧ (Flag.knuth2 ∉ flagsOf r.items → Flag.knuth3 ∉ flagsOf r.items → k = 0)
  | .parity, [n] => c = .parity n
  | .count, [m, p] => c = .count m p
  | .ram, [s, k, n] => c = .ram s k n
  | .ptn, [n] => c = .ptn env.isqrt n
  | .cliquecoloring, [n, k, col] => c = .cliquecoloring n k col
  | .randkcnf, [k, n, m] => c = .randkcnf (env.rnd r.seed k n) k n m
  | .or, [p, n] => c = .or p n
  | .and, [p, n] => c = .and p n
  | .empty, [] => c = .other .empty
  | .emptyclause, [] => c = .other .emptyclause
  | _, _ => False

/-- The documented name of a transformation with a number. -/
def TFam.word : TFam → Str
  | .or => "or".toList
  | .xor => "xor".toList
  | .eq => "eq".toList
  | .neq => "neq".toList
  | .maj => "maj".toList
  | .one => "one".toList
  | .lift => "lift".toList

/-- A transformation after `-T`: its name, and the number or the flags. -/
inductive TReq where
  | none | flip | ite | shuffle (flags : List (Bool × Flag)) | number (t : TFam) (n : Option Int)

def TReq.words : TReq → List Str
  | .none => ["none".toList]
  | .flip => ["flip".toList]
  | .ite => ["ite".toList]
  | .shuffle fs => "shuffle".toList :: fs.map fun f => f.2.word f.1
  | .number t n => t.word :: (n.map intStr).toList

/-- `shuffle` knows three flags. -/
def TReq.Ok : TReq → Prop
  | .shuffle fs => ∀ f ∈ fs, f.2 ∈ [Flag.noFlips, .noVars, .noClauses]
  | _ => True

/-- The transformation asked for; the standard number is 2 for `or` and `xor`, and 3 for the others. -/
def TReq.Asks (env : CmdEnv) (seed : Option Str) : TReq → Trans → Prop
  | .none, T => T = .none
  | .flip, T => T = .flip
  | .ite, T => T = .ite
  | .shuffle fs, T => T = .shuffle (decide (Flag.noFlips ∈ fs.map (·.2))) (decide (Flag.noVars ∈ fs.map (·.2))) (decide (Flag.noClauses ∈ fs.map (·.2)))
      (env.vs seed) (env.cs seed) (env.signs seed)
  | .number .or n, T => T = .or (n.getD 2)
  | .number .xor n, T => T = .xor (n.getD 2)
  | .number .eq n, T => T = .eq (n.getD 3)
  | .number .neq n, T => T = .neq (n.getD 3)
  | .number .maj n, T => T = .maj (n.getD 3)
  | .number .one n, T => T = .one (n.getD 3)
  | .number .lift n, T => T = .lift (n.getD 3)

/-- The number of variables a variable is replaced by is large enough to keep satisfiability. -/
def TReq.Sensible : TReq → Prop
  | .number .eq n | .number .neq n => ∀ i, n = some i → 2 ≤ i
  | .number _ n => ∀ i, n = some i → 1 ≤ i
  | _ => True

/-- What is assumed of the machine: `-` is a text stream; the random source keeps the promises of Python's library; the logarithm and the square root are right. -/
structure CmdEnv.Ok (env : CmdEnv) : Prop where
  dash : env.dash = .text
  rnd : ∀ s (k n : Int), k.toNat ≤ n.toNat → (env.rnd s k n).Ok k.toNat n.toNat
  bits : ∀ h : Int, h.toNat ≤ 2 ^ env.bits h
  isqrt : ∀ z, env.isqrt (z ^ 2) = z
  shuffle : ∀ s n m, (env.vs s n).Perm (List.range n) ∧ (env.cs s m).Perm (List.range m) ∧ (env.signs s n).length = n ∧ ∀ x ∈ env.signs s n, x = 1 ∨ x = -1

/-- A word stands for a flag: the beginning of its long name, or a dash and letters, among them its letter. -/
def Spells (w : Str) (fl : Flag) : Prop :=
  ("--".toList <+: w ∧ w <+: fl.word true) ∨ (w.head? = some '-' ∧ ∃ c ∈ w.tail, fl.word false = ['-', c])

/-! ### Proofs -/

section
variable {α : Type}

/-- Options that do not look like numbers. -/
def okNames (os : List (Str × α)) : Bool := os.all fun o => match o.1 with
  | '-' :: c :: _ => (digitVal? c).isNone
  | _ => false

theorem okNames_spec {os : List (Str × α)} (h : okNames os = true) {o : Str × α} (ho : o ∈ os) : ∃ c t, o.1 = '-' :: c :: t ∧ digitVal? c = none := by
  have := (List.all_eq_true.1 h) o ho
  split at this
  · rename_i c t e
    exact ⟨c, t, e, by simpa using this⟩
  · simp at this

theorem optLookup_none {os : List (Str × α)} {s : Str} (h : ∀ o ∈ os, o.1 ≠ s) : optLookup os s = none := by
  unfold optLookup
  rw [List.find?_eq_none.2 (by simpa using h)]
  rfl

theorem classify_plain (os : List (Str × α)) {s : Str} (h : s.head? ≠ some '-') : classify os s = .arg := by
  cases s with
  | nil => rfl
  | cons c t =>
    have : c ≠ '-' := fun e => h (by simp [e])
    simp [classify, this]

theorem dropWhile_every {A : Type} {p : A → Bool} : ∀ {l : List A}, (∀ x ∈ l, p x = true) → l.dropWhile p = []
  | [], _ => rfl
  | x :: l, h => by
    rw [List.dropWhile_cons_of_pos (h x (by simp))]
    exact dropWhile_every fun y hy => h y (by simp [hy])

theorem takeWhile_every {A : Type} {p : A → Bool} : ∀ {l : List A}, (∀ x ∈ l, p x = true) → l.takeWhile p = l
  | [], _ => rfl
  | x :: l, h => by
    rw [List.takeWhile_cons_of_pos (h x (by simp)), takeWhile_every fun y hy => h y (by simp [hy])]

theorem natStr_first (n : Nat) : ∃ c t, natStr n = c :: t ∧ (digitVal? c).isSome = true ∧ ∀ d ∈ t, (digitVal? d).isSome = true := by
  cases e : natStr n with
  | nil => exact absurd e (natStr_ne_nil n)
  | cons c t =>
    have h := natStr_dig n
    rw [e] at h
    exact ⟨c, t, rfl, h c (by simp), fun d hd => h d (by simp [hd])⟩

theorem classify_int {os : List (Str × α)} (h : okNames os = true) (i : Int) : classify os (intStr i) = .arg := by
  unfold intStr
  obtain ⟨c, t, e, hc, ht⟩ := natStr_first i.natAbs
  split
  · rw [e]
    have hlook : ∀ s : Str, (∃ r, s = '-' :: c :: r) → optLookup os s = none := by
      rintro s ⟨r, rfl⟩
      apply optLookup_none
      intro o ho e2
      obtain ⟨c', t', e3, h3⟩ := okNames_spec h ho
      rw [e3] at e2
      simp only [List.cons.injEq, true_and] at e2
      rw [← e2.1, h3] at hc
      simp at hc
    have hcm : c ≠ '-' := by
      rintro rfl
      revert hc; decide
    have heq : '=' ∉ '-' :: c :: t := by
      intro hm
      simp only [List.mem_cons] at hm
      rcases hm with hm | hm | hm
      · revert hm; decide
      · subst hm; revert hc; decide
      · have := ht _ hm; revert this; decide
    have haf : afterEq ('-' :: c :: t) = none := by simp [afterEq, heq]
    have hcand : optCandidates os ('-' :: c :: t) = [] := by
      unfold optCandidates
      split
      · rename_i e2
        simp only [List.cons.injEq, true_and] at e2
        exact absurd e2.1 hcm
      · rename_i e2
        simp only [List.cons.injEq, true_and] at e2
        obtain ⟨rfl, rfl⟩ := e2
        rw [List.filterMap_eq_nil_iff]
        intro o ho
        obtain ⟨c', t', e3, h3⟩ := okNames_spec h ho
        have hne : c' ≠ c := by
          rintro rfl
          rw [h3] at hc; simp at hc
        rw [if_neg (by rw [e3]; simp [hne]), if_neg (by rw [e3]; simp [Ne.symm hne])]
      · rfl
    have hneg : negLike ('-' :: c :: t) = true := by
      have : (c :: t).dropWhile (fun c => (digitVal? c).isSome) = [] := by
        apply dropWhile_every
        intro d hd
        rcases List.mem_cons.1 hd with rfl | hd
        · exact hc
        · exact ht d hd
      unfold negLike
      simp only [this]
      simp
    unfold classify
    simp only [ne_eq, not_true_eq_false, if_false, hlook _ ⟨t, rfl⟩, haf, Option.bind_none, hcand, hneg, if_true]
    simp
  · apply classify_plain
    rw [e]
    simp only [List.head?_cons, ne_eq, Option.some.injEq]
    rintro rfl
    revert hc; decide
end

theorem fam_options_ok (f : Fam) : okNames f.options = true := by cases f <;> decide
theorem main_options_ok : okNames mainOptions = true := by decide

theorem classify_flag (f : Fam) (fl : Flag) (h : fl ∈ f.allowed) (l : Bool) : ∃ long, classify f.options (fl.word l) = .opt fl long none := by
  cases f <;> simp only [Fam.allowed, List.mem_cons, List.not_mem_nil, or_false] at h
  · rcases h with rfl | rfl <;> cases l <;> exact ⟨_, rfl⟩
  · rcases h with rfl | rfl | rfl | rfl | rfl <;> cases l <;> exact ⟨_, rfl⟩

theorem subWords_items (f : Fam) (items : List Item) (h : ∀ fl ∈ flagsOf items, fl ∈ f.allowed) :
    subWords f.options (items.map Item.word) = some ((numbersOf items).map intStr, flagsOf items) := by
  induction items with
  | nil => rfl
  | cons x items ih =>
    cases x with
    | number i =>
      have ih := ih h
      rw [List.map_cons, subWords, show (Item.number i).word = intStr i from rfl, classify_int (fam_options_ok f)]
      simp only [ih]
      rfl
    | flag l fl =>
      have ih := ih fun g hg => h g (by simp only [flagsOf, List.filterMap_cons] at hg ⊢; simp [hg])
      obtain ⟨long, e⟩ := classify_flag f fl (h fl (by simp [flagsOf])) l
      rw [List.map_cons, subWords, show (Item.flag l fl).word = fl.word l from rfl, e]
      simp only [ih, optExpand]
      rfl

/-- What a general option does. -/
def GOpt.effect : GOpt → MOpt × Str
  | .quiet _ => (.quiet, [])
  | .verbose _ => (.verbose, [])
  | .seed _ s => (.seed, s)
  | .stdout _ => (.output, "-".toList)
  | .dimacs _ => (.format, "dimacs".toList)

theorem leading_gen (gen : List GOpt) (hs : ∀ a s, GOpt.seed a s ∈ gen → s.head? ≠ some '-') {rest : List Str} (hr : leading mainOptions MOpt.takes rest = some ([], rest)) :
    leading mainOptions MOpt.takes (gen.flatMap GOpt.words ++ rest) = some (gen.map GOpt.effect, rest) := by
  induction gen with
  | nil =>
    rw [List.flatMap_nil, List.nil_append, hr]
    rfl
  | cons g gen ih =>
    have ih := ih fun a s h => hs a s (by simp [h])
    rw [List.flatMap_cons, List.append_assoc]
    generalize gen.flatMap GOpt.words ++ rest = ws at ih
    cases g with
    | quiet l =>
      cases l
      · rw [show (GOpt.quiet false).words ++ ws = "-q".toList :: ws from rfl, leading, show classify mainOptions "-q".toList = .opt .quiet false none from rfl]
        simp only [optExpand, ih]; rfl
      · rw [show (GOpt.quiet true).words ++ ws = "--quiet".toList :: ws from rfl, leading, show classify mainOptions "--quiet".toList = .opt .quiet true none from rfl]
        simp only [optExpand, ih]; rfl
    | verbose l =>
      cases l
      · rw [show (GOpt.verbose false).words ++ ws = "-v".toList :: ws from rfl, leading, show classify mainOptions "-v".toList = .opt .verbose false none from rfl]
        simp only [optExpand, ih]; rfl
      · rw [show (GOpt.verbose true).words ++ ws = "--verbose".toList :: ws from rfl, leading, show classify mainOptions "--verbose".toList = .opt .verbose true none from rfl]
        simp only [optExpand, ih]; rfl
    | seed l s =>
      have e := classify_plain mainOptions (hs l s (by simp))
      cases l
      · rw [show (GOpt.seed false s).words ++ ws = "-S".toList :: s :: ws from rfl, leading, show classify mainOptions "-S".toList = .opt .seed false none from rfl]
        simp only [optExpand, e, ih]; rfl
      · rw [show (GOpt.seed true s).words ++ ws = "--seed".toList :: s :: ws from rfl, leading, show classify mainOptions "--seed".toList = .opt .seed true none from rfl]
        simp only [optExpand, e, ih]; rfl
    | stdout l =>
      have e : classify mainOptions "-".toList = .arg := rfl
      cases l
      · rw [show (GOpt.stdout false).words ++ ws = "-o".toList :: "-".toList :: ws from rfl, leading, show classify mainOptions "-o".toList = .opt .output false none from rfl]
        simp only [optExpand, e, ih]; rfl
      · rw [show (GOpt.stdout true).words ++ ws = "--output".toList :: "-".toList :: ws from rfl, leading, show classify mainOptions "--output".toList = .opt .output true none from rfl]
        simp only [optExpand, e, ih]; rfl
    | dimacs l =>
      have e : classify mainOptions "dimacs".toList = .arg := rfl
      cases l
      · rw [show (GOpt.dimacs false).words ++ ws = "-of".toList :: "dimacs".toList :: ws from rfl, leading, show classify mainOptions "-of".toList = .opt .format false none from rfl]
        simp only [optExpand, e, ih]; rfl
      · rw [show (GOpt.dimacs true).words ++ ws = "--output-format".toList :: "dimacs".toList :: ws from rfl, leading,
          show classify mainOptions "--output-format".toList = .opt .format true none from rfl]
        simp only [optExpand, e, ih]; rfl

/-- No ambiguous word. -/
def Clear (w : Str) : Prop := classify mainOptions w ≠ .ambiguous

theorem clear_flag (fl : Flag) (l : Bool) : Clear (fl.word l) := by
  unfold Clear
  cases fl <;> cases l <;> decide

theorem clear_name (f : Fam) : classify mainOptions f.name = .arg := by cases f <;> rfl

theorem clear_item (x : Item) : Clear x.word := by
  cases x with
  | number i => unfold Clear; rw [show (Item.number i).word = intStr i from rfl, classify_int main_options_ok]; simp
  | flag l fl => exact clear_flag fl l

theorem clear_gopt {g : GOpt} (hs : ∀ a s, g = GOpt.seed a s → s.head? ≠ some '-') : ∀ w ∈ g.words, Clear w := by
  intro w hw
  unfold Clear
  cases g with
  | quiet l => obtain rfl := List.mem_singleton.1 hw; cases l <;> decide
  | verbose l => obtain rfl := List.mem_singleton.1 hw; cases l <;> decide
  | seed l s =>
    simp only [GOpt.words, List.mem_cons, List.not_mem_nil, or_false] at hw
    rcases hw with rfl | rfl
    · cases l <;> decide
    · rw [classify_plain _ (hs l _ rfl)]; simp
  | stdout l =>
    simp only [GOpt.words, List.mem_cons, List.not_mem_nil, or_false] at hw
    rcases hw with rfl | rfl
    · cases l <;> decide
    · decide
  | dimacs l =>
    simp only [GOpt.words, List.mem_cons, List.not_mem_nil, or_false] at hw
    rcases hw with rfl | rfl
    · cases l <;> decide
    · decide

/-- The general options before the name of a sub-command keep the rules. -/
structure GenOk (gen : List GOpt) : Prop where
  loud : ∀ a b, GOpt.quiet a ∈ gen → GOpt.verbose b ∉ gen
  seeds : ∀ a s, GOpt.seed a s ∈ gen → s.head? ≠ some '-'

/-- `Request.quiet` and `Request.seed` for the general options alone. -/
def genQuiet (gen : List GOpt) : Bool := gen.any fun | .quiet _ => true | _ => false
def genSeed (gen : List GOpt) : Option Str :=
  ((gen.filterMap fun | .seed _ s => some s | _ => none).getLast?).bind fun s => if s = [] then none else some s

theorem Request.Ok.gen {r : Request} (h : r.Ok) : GenOk r.gen := ⟨h.loud, h.seeds⟩

theorem parseMain_gen {gen : List GOpt} (h : GenOk gen) {name : Str} {ws : List Str} (hn : classify mainOptions name = .arg) (hw : ∀ w ∈ ws, Clear w) :
    parseMain mainOptions MOpt.takes (gen.flatMap GOpt.words ++ name :: ws) = some (gen.map GOpt.effect, name :: ws) := by
  unfold parseMain
  rw [if_neg, leading_gen gen h.seeds (by rw [leading, hn])]
  rw [List.any_eq_true]
  rintro ⟨w, hw', hb⟩
  have hc : Clear w := by
    rcases List.mem_append.1 hw' with hw' | hw'
    · obtain ⟨g, hg, hw'⟩ := List.mem_flatMap.1 hw'
      exact clear_gopt (fun a s e => h.seeds a s (e ▸ hg)) w hw'
    · rcases List.mem_cons.1 hw' with rfl | hw'
      · unfold Clear; rw [hn]; simp
      · exact hw _ hw'
  unfold Clear at hc
  split at hb
  · rename_i e; exact hc e
  · simp at hb

theorem clear_items (items : List Item) : ∀ w ∈ items.map Item.word, Clear w := by
  intro w hw
  obtain ⟨x, _, rfl⟩ := List.mem_map.1 hw
  exact clear_item x

theorem fam_word (f : Fam) : f.word = f.name := by cases f <;> rfl
theorem tfam_word (t : TFam) : t.word = t.name := by cases t <;> rfl

theorem request_words (r : Request) : r.words = r.gen.flatMap GOpt.words ++ r.fam.name :: r.items.map Item.word := by rw [Request.words, fam_word]

theorem parseMain_words {r : Request} (h : r.Ok) : parseMain mainOptions MOpt.takes r.words = some (r.gen.map GOpt.effect, r.fam.name :: r.items.map Item.word) := by
  rw [request_words]
  exact parseMain_gen h.gen (clear_name _) (clear_items _)

theorem effect_any (gen : List GOpt) (o : MOpt) : ((gen.map GOpt.effect).any fun e => decide (e.1 = o)) = true ↔ ∃ g ∈ gen, g.effect.1 = o := by
  simp

theorem lastOf_seed (gen : List GOpt) : lastOf .seed (gen.map GOpt.effect) = (gen.filterMap fun | .seed _ s => some s | _ => none).getLast? := by
  have e : (((gen.map GOpt.effect).filter fun e => decide (e.1 = MOpt.seed)).map (·.2)) = gen.filterMap fun | .seed _ s => some s | _ => none := by
    induction gen with
    | nil => rfl
    | cons g gen ih => cases g <;> simp [GOpt.effect, ← ih]
  unfold lastOf
  rw [← e, List.getLast?_map]

theorem lastOf_const {gen : List GOpt} {o : MOpt} {v : Str} (h : ∀ g ∈ gen, g.effect.1 = o → g.effect.2 = v) : (lastOf o (gen.map GOpt.effect)).getD v = v := by
  unfold lastOf
  cases e : ((gen.map GOpt.effect).filter fun e => decide (e.1 = o)).getLast? with
  | none => rfl
  | some x =>
    have hx := List.mem_of_getLast? e
    obtain ⟨h1, h2⟩ := List.mem_filter.1 hx
    obtain ⟨g, hg, rfl⟩ := List.mem_map.1 h1
    exact h g hg (by simpa using h2)

theorem runSeed_gen {gen : List GOpt} (h : GenOk gen) {name : Str} {ws : List Str} (hn : classify mainOptions name = .arg) (hw : ∀ w ∈ ws, Clear w) :
    runSeed (gen.flatMap GOpt.words ++ name :: ws) = genSeed gen := by
  unfold runSeed
  rw [parseMain_gen h hn hw]
  simp only [lastOf_seed, genSeed]

theorem runSeed_words {r : Request} (h : r.Ok) : runSeed r.words = r.seed := by
  rw [request_words]
  exact runSeed_gen h.gen (clear_name _) (clear_items _)

theorem find_fam (f : Fam) : (Fam.all.find? fun g => decide (g.name = f.name)) = some f := by cases f <;> decide

theorem exclusive_ok {r : Request} (h : r.Ok) : exclusive (flagsOf r.items) = true := by
  unfold exclusive
  rw [decide_eq_true_eq]
  by_contra hn
  have hnd : ([Flag.total, .smart, .knuth2, .knuth3].filter fun f => decide (f ∈ flagsOf r.items)).Nodup := List.Nodup.filter _ (by decide)
  generalize e : ([Flag.total, .smart, .knuth2, .knuth3].filter fun f => decide (f ∈ flagsOf r.items)) = l at hn hnd
  match l, hn, hnd, e with
  | [], hn, _, _ => exact absurd (by simp) hn
  | [_], hn, _, _ => exact absurd (by simp) hn
  | a :: b :: l, _, hnd, e =>
    have ha : a ∈ a :: b :: l := by simp
    have hb : b ∈ a :: b :: l := by simp
    rw [← e] at ha hb
    obtain ⟨a1, a2⟩ := List.mem_filter.1 ha
    obtain ⟨b1, b2⟩ := List.mem_filter.1 hb
    exact h.one a (by simpa using a2) b (by simpa using b2) (by intro e; simp [e] at hnd) a1 b1

theorem command_asks {env : CmdEnv} {r : Request} {c : ICmd} (hc : r.Asks env c) : r.fam.command env r.seed (numbersOf r.items) (flagsOf r.items) = some c := by
  unfold Request.Asks at hc
  split at hc
  case h_3 =>
    rename_i n e1 e2
    obtain ⟨k, rfl, h2, h3, h4⟩ := hc
    rw [e1, e2]
    simp only [Fam.command]
    congr 2
    by_cases k2 : Flag.knuth2 ∈ flagsOf r.items
    · rw [if_pos k2, h2 k2]
    · rw [if_neg k2]
      by_cases k3 : Flag.knuth3 ∈ flagsOf r.items
      · rw [if_pos k3, h3 k3]
      · rw [if_neg k3, h4 k2 k3]
  case h_14 => exact absurd hc id
  all_goals
    rename_i e1 e2
    subst hc
    rw [e1, e2]
    rfl

theorem readLine_gen {γ : Type} (env : CmdEnv) (sub : Option Str → Str → List Str → Option γ) {gen : List GOpt} (h : GenOk gen) {name : Str} {ws : List Str}
    (hn : classify mainOptions name = .arg) (hw : ∀ w ∈ ws, Clear w) :
    readLine env sub (gen.flatMap GOpt.words ++ name :: ws) = (sub (genSeed gen) name ws).map fun c => ⟨!genQuiet gen, env.dash, false, some c⟩ := by
  have hno : ∀ o, (∀ g ∈ gen, g.effect.1 ≠ o) → ((gen.map GOpt.effect).any fun e => decide (e.1 = o)) = false := by
    intro o h1
    rw [Bool.eq_false_iff]
    intro h2
    obtain ⟨g, hg, e⟩ := (effect_any _ _).1 h2
    exact h1 g hg e
  have h1 := hno .help (by intro g _; cases g <;> simp [GOpt.effect])
  have h2 := hno .version (by intro g _; cases g <;> simp [GOpt.effect])
  have h3 : (((gen.map GOpt.effect).any fun e => decide (e.1 = MOpt.verbose)) && ((gen.map GOpt.effect).any fun e => decide (e.1 = MOpt.quiet))) = false := by
    rw [Bool.eq_false_iff]
    intro h4
    rw [Bool.and_eq_true] at h4
    obtain ⟨g, hg, e⟩ := (effect_any _ _).1 h4.1
    obtain ⟨g', hg', e'⟩ := (effect_any _ _).1 h4.2
    cases g <;> simp [GOpt.effect] at e
    cases g' <;> simp [GOpt.effect] at e'
    exact h.loud _ _ hg' hg
  have h4 : ((gen.map GOpt.effect).filter fun e => decide (e.1 = MOpt.format)).any (fun e => decide (e.2 ≠ "latex".toList ∧ e.2 ≠ "dimacs".toList)) = false := by
    rw [Bool.eq_false_iff]
    intro h4
    obtain ⟨x, hx, hb⟩ := List.any_eq_true.1 h4
    obtain ⟨hx, ho⟩ := List.mem_filter.1 hx
    obtain ⟨g, _, rfl⟩ := List.mem_map.1 hx
    cases g <;> simp [GOpt.effect] at ho hb
  have h5 : ((gen.map GOpt.effect).filter fun e => decide (e.1 = MOpt.output)).any (fun e => decide (e.2 ≠ "-".toList) && !env.canOpen e.2) = false := by
    rw [Bool.eq_false_iff]
    intro h4
    obtain ⟨x, hx, hb⟩ := List.any_eq_true.1 h4
    obtain ⟨hx, ho⟩ := List.mem_filter.1 hx
    obtain ⟨g, _, rfl⟩ := List.mem_map.1 hx
    cases g <;> simp [GOpt.effect] at ho hb
  have h6 := lastOf_const (gen := gen) (o := .format) (v := "dimacs".toList) (by intro g _ e; cases g <;> first | rfl | (simp [GOpt.effect] at e))
  have h7 := lastOf_const (gen := gen) (o := .output) (v := "-".toList) (by intro g _ e; cases g <;> first | rfl | (simp [GOpt.effect] at e))
  have h9 : ((gen.map GOpt.effect).any fun e => decide (e.1 = MOpt.quiet)) = genQuiet gen := by
    unfold genQuiet
    rw [List.any_map]
    congr 1
    funext g
    cases g <;> rfl
  unfold readLine
  rw [parseMain_gen h hn hw]
  rw [h9] at h3
  simp only [h1, h2, h3, h4, h5, h6, h7, h9, lastOf_seed, Bool.or_false, Bool.false_eq_true, if_false, if_true]
  have h10 : (((gen.filterMap fun | .seed _ s => some s | _ => none).getLast?).bind fun s => if s = [] then none else some s) = genSeed gen := rfl
  rw [h10]
  have : decide ("dimacs".toList = "latex".toList) = false := by decide
  simp only [this]
  cases sub (genSeed gen) name ws <;> rfl

theorem readMain_gen (env : CmdEnv) {gen : List GOpt} (h : GenOk gen) {name : Str} {ws : List Str} (hn : classify mainOptions name = .arg) (hw : ∀ w ∈ ws, Clear w) :
    readMain env (gen.flatMap GOpt.words ++ name :: ws) = (subCommand env (genSeed gen) name ws).map fun c => ⟨!genQuiet gen, env.dash, false, some c⟩ :=
  readLine_gen env _ h hn hw

theorem readMain_words (env : CmdEnv) {r : Request} (h : r.Ok) :
    readMain env r.words = (r.fam.command env r.seed (numbersOf r.items) (flagsOf r.items)).map fun c => ⟨!r.quiet, env.dash, false, some c⟩ := by
  have h8 : subCommand env r.seed r.fam.name (r.items.map Item.word) = r.fam.command env r.seed (numbersOf r.items) (flagsOf r.items) := by
    unfold subCommand
    rw [find_fam]
    simp only [subWords_items r.fam r.items h.flags, Gen.mapOpt_intStr, exclusive_ok h]
    rw [if_neg]
    rintro (h9 | h9)
    · have := h.flags _ h9
      revert this
      cases r.fam <;> decide
    · simp at h9
  rw [request_words]
  exact (readMain_gen env h.gen (clear_name _) (clear_items _)).trans (congrArg _ h8)

/-- **C96** (parsing)  Every documented command line of a family over numbers is understood: the options, the numbers in their order, the flags in any place. -/
theorem C96_understood (env : CmdEnv) {r : Request} (h : r.Ok) {c : ICmd} (hc : r.Asks env c) :
    readMain env r.words = some ⟨!r.quiet, env.dash, false, some c⟩ := by
  rw [readMain_words env h, command_asks hc]
  rfl

theorem help_ok : okNames helpOptions = true := by decide

theorem subWords_shuffle (fs : List (Bool × Flag)) (h : ∀ f ∈ fs, f.2 ∈ [Flag.noFlips, .noVars, .noClauses]) :
    subWords shuffleOptions (fs.map fun f => f.2.word f.1) = some ([], fs.map (·.2)) := by
  induction fs with
  | nil => rfl
  | cons x fs ih =>
    have ih := ih fun g hg => h g (by simp [hg])
    have e : ∃ long, classify shuffleOptions (x.2.word x.1) = .opt x.2 long none := by
      have := h x (by simp)
      obtain ⟨l, fl⟩ := x
      simp only [List.mem_cons, List.not_mem_nil, or_false] at this
      rcases this with rfl | rfl | rfl <;> cases l <;> exact ⟨_, rfl⟩
    obtain ⟨long, e⟩ := e
    rw [List.map_cons, subWords, e]
    simp only [optExpand, ih]
    rfl

theorem parseMain_help {name : Str} {ws : List Str} (hn : classify helpOptions name = .arg) (h : ∀ w ∈ ws, classify helpOptions w ≠ .ambiguous) :
    parseMain helpOptions (fun _ => false) (name :: ws) = some ([], name :: ws) := by
  unfold parseMain
  rw [if_neg, leading, hn]
  rw [List.any_eq_true]
  rintro ⟨w, hw, hb⟩
  have : classify helpOptions w ≠ .ambiguous := by
    rcases List.mem_cons.1 hw with rfl | hw
    · rw [hn]; simp
    · exact h w hw
  split at hb
  · rename_i e; exact this e
  · simp at hb

theorem tfam_names (t : TFam) : classify helpOptions t.name = .arg ∧ t.name ≠ "none".toList ∧ t.name ≠ "flip".toList ∧ t.name ≠ "ite".toList ∧ t.name ≠ "shuffle".toList ∧
    (TFam.all.find? fun u => decide (u.name = t.name)) = some t := by
  cases t <;> decide

/-- **C96** (transformations)  Every documented transformation is understood. -/
theorem C96_transformation (env : CmdEnv) (seed : Option Str) {t : TReq} (h : t.Ok) {T : Trans} (ha : t.Asks env seed T) : readTrans env seed t.words = some (some T) := by
  unfold readTrans
  cases t with
  | none => rw [show TReq.none.words = "none".toList :: [] from rfl, parseMain_help (by decide) (by simp)]; simp only [TReq.Asks] at ha; subst ha; rfl
  | flip => rw [show TReq.flip.words = "flip".toList :: [] from rfl, parseMain_help (by decide) (by simp)]; simp only [TReq.Asks] at ha; subst ha; rfl
  | ite => rw [show TReq.ite.words = "ite".toList :: [] from rfl, parseMain_help (by decide) (by simp)]; simp only [TReq.Asks] at ha; subst ha; rfl
  | shuffle fs =>
    rw [show (TReq.shuffle fs).words = "shuffle".toList :: fs.map (fun f => f.2.word f.1) from rfl, parseMain_help (by decide)]
    · have e : noArgs shuffleOptions (fs.map fun f => f.2.word f.1) = some (fs.map (·.2)) := by
        unfold noArgs
        rw [subWords_shuffle fs h]
        simp only
        rw [if_neg]
        intro hm
        obtain ⟨f, hf, e⟩ := List.mem_map.1 hm
        have := h f hf
        rw [e] at this
        revert this; decide
      have d1 : ¬ "shuffle".toList = "none".toList := by decide
      have d2 : ¬ "shuffle".toList = "flip".toList := by decide
      have d3 : ¬ "shuffle".toList = "ite".toList := by decide
      simp only [TReq.Asks] at ha
      subst ha
      simp only [ne_eq, not_true_eq_false, if_false, d1, d2, d3, if_true, e, Option.map_some]
    · intro w hw
      obtain ⟨f, _, rfl⟩ := List.mem_map.1 hw
      obtain ⟨l, fl⟩ := f
      cases fl <;> cases l <;> decide
  | number t n =>
    obtain ⟨q1, q2, q3, q4, q5, q6⟩ := tfam_names t
    rw [show (TReq.number t n).words = t.word :: (n.map intStr).toList from rfl, tfam_word, parseMain_help q1]
    · have e : optNumber (n.map intStr).toList = some n := by
        unfold optNumber
        cases n with
        | none => rfl
        | some i =>
          rw [show (Option.map intStr (some i)).toList = [intStr i] from rfl, subWords, classify_int help_ok]
          simp only [subWords, Option.map_some, parseInt_intStr]
      simp only [ne_eq, not_true_eq_false, if_false, q2, q3, q4, q5, q6, e, Option.map_some]
      cases t <;> simp only [TReq.Asks] at ha <;> subst ha <;> rfl
    · intro w hw
      cases n with
      | none => simp at hw
      | some i =>
        obtain rfl : w = intStr i := by simpa using hw
        rw [classify_int help_ok]; simp

theorem intStr_noT (i : Int) : intStr i ≠ "-T".toList := by
  intro e
  have := classify_int (os := mainOptions) main_options_ok i
  rw [e] at this
  revert this; decide

theorem gen_noT {gen : List GOpt} (h : GenOk gen) : "-T".toList ∉ gen.flatMap GOpt.words := by
  intro hm
  obtain ⟨g, hg, hw⟩ := List.mem_flatMap.1 hm
  cases g with
  | quiet l => cases l <;> revert hw <;> decide
  | verbose l => cases l <;> revert hw <;> decide
  | seed l s =>
    rcases List.mem_cons.1 hw with e | e
    · cases l <;> revert e <;> decide
    · obtain rfl := List.mem_singleton.1 e
      exact h.seeds _ _ hg (by decide)
  | stdout l => cases l <;> revert hw <;> decide
  | dimacs l => cases l <;> revert hw <;> decide

theorem request_noT {r : Request} (h : r.Ok) : "-T".toList ∉ r.words := by
  intro hm
  rcases List.mem_append.1 hm with hm | hm
  · exact gen_noT h.gen hm
  · rcases List.mem_cons.1 hm with e | hm
    · revert e; cases r.fam <;> decide
    · obtain ⟨x, _, e⟩ := List.mem_map.1 hm
      cases x with
      | number i => exact intStr_noT i e
      | flag l fl => revert e; cases fl <;> cases l <;> decide

theorem treq_noT (t : TReq) : "-T".toList ∉ t.words := by
  cases t with
  | none => decide
  | flip => decide
  | ite => decide
  | shuffle fs =>
    intro hm
    rcases List.mem_cons.1 hm with e | hm
    · revert e; decide
    · obtain ⟨⟨l, fl⟩, _, e⟩ := List.mem_map.1 hm
      revert e; cases fl <;> cases l <;> decide
  | number t n =>
    intro hm
    rcases List.mem_cons.1 hm with e | hm
    · revert e; cases t <;> decide
    · cases n with
      | none => simp at hm
      | some i => exact intStr_noT i (by simpa using hm : "-T".toList = intStr i).symm

theorem treqs_read {env : CmdEnv} (he : env.Ok) (seed : Option Str) (ts : List TReq) (ht : ∀ t ∈ ts, t.Ok ∧ t.Sensible) :
    ∃ Ts, List.Forall₂ (fun w T => readTrans env seed w = some (some T)) (ts.map TReq.words) Ts ∧ ∀ T ∈ Ts, T.Chance ∧ T.Faithful ∧ ¬ T.IsComp := by
  have hex : ∀ t ∈ ts, ∃ T, t.Asks env seed T ∧ T.Chance ∧ T.Faithful ∧ ¬ T.IsComp := by
    intro t hm
    obtain ⟨_, hs⟩ := ht t hm
    cases t with
    | none => exact ⟨_, rfl, fun _ _ => trivial, trivial, id⟩
    | flip => exact ⟨_, rfl, fun _ _ => trivial, trivial, id⟩
    | ite => exact ⟨_, rfl, fun _ _ => trivial, trivial, id⟩
    | shuffle fs => exact ⟨_, rfl, fun n m => he.shuffle _ n m, trivial, id⟩
    | number t n => cases t <;> cases n <;> refine ⟨_, rfl, fun _ _ => trivial, ?_, id⟩ <;> first | exact hs _ rfl | (simp [Trans.Faithful])
  induction ts with
  | nil => exact ⟨[], .nil, by simp⟩
  | cons t ts ih =>
    obtain ⟨Ts, h1, h2⟩ := ih (fun t h => ht t (by simp [h])) (fun t h => hex t (by simp [h]))
    obtain ⟨T, h3, h4⟩ := hex t (by simp)
    exact ⟨T :: Ts, .cons (C96_transformation env seed (ht t (by simp)).1 h3) h1, by
      intro T' hT'
      rcases List.mem_cons.1 hT' with rfl | hT'
      · exact h4
      · exact h2 _ hT'⟩

/-- **C96**  The whole way from the words: every documented command line for a family over numbers, followed by any number of transformations, is refused exactly if a number is bad
or there is no such formula, and otherwise prints a DIMACS formula that can be satisfied exactly if the one asked for can. -/
theorem C96_cnfgen {env : CmdEnv} (he : env.Ok) {r : Request} (h : r.Ok) {c : ICmd} (hc : r.Asks env c) (ts : List TReq) (ht : ∀ t ∈ ts, t.Ok ∧ t.Sensible) :
    (cnfgenMain env (cmdLine r.words (ts.map TReq.words)) = pure none ∧ (c.BadNumber ∨ c.floor.Answers none)) ∨
    (¬ c.BadNumber ∧ ∃ out n cs P, cnfgenMain env (cmdLine r.words (ts.map TReq.words)) = pure (some out) ∧ Prints out n cs ∧ c.floor.Answers (some P) ∧
      (Spec.Satisfiable cs ↔ P)) := by
  have hT : "-T".toList ∉ r.words := request_noT h
  have hTs : ∀ t ∈ ts.map TReq.words, "-T".toList ∉ t := by
    intro t hm
    obtain ⟨t, _, rfl⟩ := List.mem_map.1 hm
    exact treq_noT t
  have hleg : c.floor.Legal := by
    unfold Request.Asks at hc
    split at hc
    case h_3 => obtain ⟨k, rfl, _⟩ := hc; trivial
    case h_2 => subst hc; exact he.bits _
    case h_7 => subst hc; exact fun z _ => he.isqrt z
    case h_9 => subst hc; exact fun hk => he.rnd _ _ _ hk
    case h_14 => exact absurd hc id
    all_goals subst hc; trivial
  have hadd : ¬ c.floor.AddsEdges := by
    unfold Request.Asks at hc
    split at hc
    case h_3 => obtain ⟨k, rfl, _⟩ := hc; exact id
    case h_14 => exact absurd hc id
    all_goals subst hc; exact id
  obtain ⟨Ts, h1, h2⟩ := treqs_read he r.seed ts ht
  have hp : (fun ws => (readMain env ws).map (MainLine.args env)) r.words = some (c.args false (!r.quiet) (env.header c)) := by
    simp only [C96_understood env h hc, Option.map_some, MainLine.args, he.dash]
    rfl
  have hsplit : ((splitlist (cmdLine r.words (ts.map TReq.words)) "-T".toList).headD []).drop 1 = r.words := by
    rw [splitlist_cmdLine _ _ hT hTs]
    rfl
  unfold cnfgenMain
  rw [hsplit, runSeed_words h]
  rcases C93_cnfgen hleg (fun ws => (readMain env ws).map (MainLine.args env)) (readTrans env r.seed) r.words (ts.map TReq.words) hT hTs (!r.quiet) (env.header c) hp h1 h2 with q | q | q
  · exact .inl q
  · exact .inr q
  · exact absurd q.2 hadd

/-! ### What is accepted -/

theorem parseInt_dash {c : Char} (hc : digitVal? c = none) (t : Str) : parseInt ('-' :: c :: t) = none := by
  have hp : strip ('-' :: c :: t) <+: '-' :: c :: t := by
    unfold strip
    rw [List.dropWhile_cons_of_neg (by decide)]
    have := List.dropWhile_suffix (l := ('-' :: c :: t).reverse) isPySpace
    simpa using List.reverse_prefix.2 this
  unfold parseInt
  obtain ⟨u, e⟩ := hp
  cases e1 : strip ('-' :: c :: t) with
  | nil => rfl
  | cons x y =>
    rw [e1] at e
    obtain ⟨rfl, _⟩ := List.cons.inj e
    show Option.map _ (digitsVal 0 false y) = none
    cases y with
    | nil => rfl
    | cons z y =>
      simp only [List.cons_append, List.cons.injEq, true_and] at e
      obtain ⟨rfl, e⟩ := e
      rw [digitsVal]
      split
      · rfl
      · rw [hc]; rfl

section
variable {α : Type}

/-- Long names have two dashes, short names one letter. -/
def neat (os : List (Str × α)) : Bool := os.all fun o => match o.1 with
  | ['-', c] => (digitVal? c).isNone && decide (c ≠ '-')
  | '-' :: '-' :: _ :: _ => true
  | _ => false

theorem neat_spec {os : List (Str × α)} (h : neat os = true) {o : Str × α} (ho : o ∈ os) :
    (∃ c, o.1 = ['-', c] ∧ digitVal? c = none ∧ c ≠ '-') ∨ ∃ t, o.1 = '-' :: '-' :: t := by
  have := (List.all_eq_true.1 h) o ho
  split at this
  · rename_i c e
    exact .inl ⟨c, e, by simpa using this⟩
  · rename_i e
    exact .inr ⟨_, e⟩
  · simp at this

theorem optLookup_mem {os : List (Str × α)} {s : Str} {a : α} (h : optLookup os s = some a) : (s, a) ∈ os := by
  unfold optLookup at h
  cases e : os.find? (fun o => decide (o.1 = s)) with
  | none => rw [e] at h; simp at h
  | some o =>
    rw [e] at h
    obtain rfl : o.2 = a := by simpa using h
    have h1 := List.mem_of_find?_eq_some e
    have h2 : o.1 = s := by simpa using List.find?_some e
    rw [← h2]; exact h1

/-- The options a word stands for, for any parser. -/
def Names (os : List (Str × α)) (w : Str) (a : α) : Prop :=
  ∃ n, (n, a) ∈ os ∧ (("--".toList <+: w ∧ w <+: n) ∨ (w.head? = some '-' ∧ ∃ c ∈ w.tail, n = ['-', c]))

theorem optLetters_names {os : List (Str × α)} : ∀ {a : α} {e : Str} {es : List (α × Option Str)}, optLetters os (fun _ => false) a e = some es →
    es ≠ [] ∧ ∀ x ∈ es, x.1 = a ∨ ∃ c ∈ e, (['-', c], x.1) ∈ os
  | a, [], es, h => by simp [optLetters] at h
  | a, c :: e', es, h => by
    rw [optLetters] at h
    cases hl : optLookup os ['-', c] with
    | none => rw [hl] at h; simp at h
    | some b =>
      rw [hl] at h
      have hb := optLookup_mem hl
      simp only [Bool.false_eq_true, if_false] at h
      split at h
      · obtain rfl : [(a, none), (b, none)] = es := by simpa using h
        refine ⟨by simp, ?_⟩
        intro x hx
        simp only [List.mem_cons, List.not_mem_nil, or_false] at hx
        rcases hx with rfl | rfl
        · exact .inl rfl
        · exact .inr ⟨c, by simp, hb⟩
      · cases hr : optLetters os (fun _ => false) b e' with
        | none => rw [hr] at h; simp at h
        | some es' =>
          rw [hr] at h
          obtain rfl : (a, none) :: es' = es := by simpa using h
          refine ⟨by simp, ?_⟩
          intro x hx
          rcases List.mem_cons.1 hx with rfl | hx
          · exact .inl rfl
          · rcases (optLetters_names hr).2 x hx with e | ⟨d, hd, hm⟩
            · exact .inr ⟨c, by simp, e ▸ hb⟩
            · exact .inr ⟨d, by simp [hd], hm⟩

theorem optExpand_names {os : List (Str × α)} {a : α} {e : Str} {es : List (α × Option Str)} (h : optExpand os (fun _ => false) false a (some e) = some es) :
    es ≠ [] ∧ ∀ x ∈ es, x.1 = a ∨ ∃ c ∈ e, (['-', c], x.1) ∈ os := by
  simp only [optExpand, Bool.false_eq_true, if_false] at h
  exact optLetters_names h

theorem takeWhile_eq_cons {A : Type} {p : A → Bool} {l : List A} {a : A} {t : List A} (h : l.takeWhile p = a :: t) : ∃ u, l = a :: u := by
  cases l with
  | nil => simp at h
  | cons x l =>
    by_cases hx : p x = true
    · rw [List.takeWhile_cons_of_pos hx] at h
      exact ⟨l, by rw [(List.cons.inj h).1]⟩
    · rw [List.takeWhile_cons_of_neg hx] at h
      simp at h

/-- The words that count as options. -/
theorem classify_opt {os : List (Str × α)} (hn : neat os = true) {w : Str} {a : α} {long : Bool} {v : Option Str} (h : classify os w = .opt a long v)
    {es : List (α × Option Str)} (he : optExpand os (fun _ => false) long a v = some es) :
    parseInt w = none ∧ es ≠ [] ∧ ∀ x ∈ es, Names os w x.1 := by
  unfold classify at h
  split at h
  · simp at h
  rename_i c t
  split at h
  · simp at h
  rename_i hc
  obtain rfl : c = '-' := by simpa using hc
  cases hl : optLookup os ('-' :: t) with
  | some b =>
    rw [hl] at h
    simp only [Word.opt.injEq] at h
    obtain ⟨rfl, rfl, rfl⟩ := h
    have hm := optLookup_mem hl
    obtain rfl : [(b, none)] = es := by simpa [optExpand] using he
    rcases neat_spec hn hm with ⟨d, e, hd, _⟩ | ⟨u, e⟩
    · obtain rfl : t = [d] := by simpa using e
      refine ⟨parseInt_dash hd _, by simp, ?_⟩
      intro x hx
      obtain rfl := List.mem_singleton.1 hx
      exact ⟨_, hm, .inr ⟨rfl, d, by simp, rfl⟩⟩
    · obtain rfl : t = '-' :: u := by simpa using e
      refine ⟨parseInt_dash (by decide) _, by simp, ?_⟩
      intro x hx
      obtain rfl := List.mem_singleton.1 hx
      exact ⟨_, hm, .inl ⟨⟨u, rfl⟩, List.prefix_refl _⟩⟩
  | none =>
    rw [hl] at h
    simp only at h
    split at h
    · simp at h
    rename_i ht
    cases hq : (afterEq ('-' :: t)).bind fun _ => optLookup os (beforeEq ('-' :: t)) with
    | some b =>
      rw [hq] at h
      simp only [Word.opt.injEq] at h
      obtain ⟨rfl, rfl, rfl⟩ := h
      obtain ⟨e, he1, he2⟩ := Option.bind_eq_some_iff.1 hq
      rw [he1] at he
      have hm := optLookup_mem he2
      have he3 : ∀ x ∈ e, x ∈ t := by
        intro x hx
        unfold afterEq at he1
        split at he1
        · obtain rfl : (('-' :: t).dropWhile (· ≠ '=')).drop 1 = e := by simpa using he1
          rw [List.dropWhile_cons_of_pos (by decide)] at hx
          exact (List.dropWhile_suffix _).subset ((List.drop_suffix _ _).subset hx)
        · simp at he1
      rcases neat_spec hn hm with ⟨d, e4, hd, hd2⟩ | ⟨u, e4⟩
      · simp only at e4
        unfold beforeEq at e4
        rw [List.takeWhile_cons_of_pos (by decide)] at e4
        have e5 := (List.cons.inj e4).2
        obtain ⟨u, rfl⟩ := takeWhile_eq_cons e5
        rw [show decide ((d :: u).head? = some '-') = false by simp [hd2]] at he
        obtain ⟨q1, q2⟩ := optExpand_names he
        refine ⟨parseInt_dash hd _, q1, ?_⟩
        intro x hx
        rcases q2 x hx with e6 | ⟨c, h1, h2⟩
        · refine ⟨['-', d], ?_, .inr ⟨rfl, d, by simp, rfl⟩⟩
          rw [e6]
          rw [show beforeEq ('-' :: d :: u) = ['-', d] by unfold beforeEq; rw [List.takeWhile_cons_of_pos (by decide), e5]] at hm
          exact hm
        · exact ⟨_, h2, .inr ⟨rfl, c, he3 c h1, rfl⟩⟩
      · simp only at e4
        unfold beforeEq at e4
        rw [List.takeWhile_cons_of_pos (by decide)] at e4
        have e5 := (List.cons.inj e4).2
        obtain ⟨u, rfl⟩ := takeWhile_eq_cons e5
        rw [show decide (('-' :: u).head? = some '-') = true by simp] at he
        rw [optExpand] at he
        simp at he
    | none =>
      rw [hq] at h
      simp only at h
      have hcand : ∀ x, optCandidates os ('-' :: t) = [x] → x = .opt a long v := by
        intro x e
        rw [e] at h
        exact h
      have hone : ∃ x, optCandidates os ('-' :: t) = [x] := by
        split at h
        · simp at h
        · rename_i x e; exact ⟨x, e⟩
        · split at h
          · simp at h
          · split at h <;> simp at h
      obtain ⟨x, ex⟩ := hone
      obtain rfl := hcand x ex
      have hmem : Word.opt a long v ∈ optCandidates os ('-' :: t) := by rw [ex]; simp
      cases t with
      | nil => exact absurd rfl ht
      | cons c t =>
        by_cases hc : c = '-'
        · subst hc
          simp only [optCandidates] at hmem
          obtain ⟨o, ho, h1⟩ := List.mem_filterMap.1 hmem
          split at h1
          · rename_i hpre
            simp only [Option.some.injEq, Word.opt.injEq] at h1
            obtain ⟨rfl, rfl, rfl⟩ := h1
            unfold afterEq at he
            split at he
            · rw [optExpand] at he
              simp at he
            · rename_i hne
              obtain rfl : [(o.2, none)] = es := by simpa [optExpand] using he
              refine ⟨parseInt_dash (by decide) _, by simp, ?_⟩
              intro x hx
              obtain rfl := List.mem_singleton.1 hx
              refine ⟨o.1, ho, .inl ⟨⟨t, rfl⟩, ?_⟩⟩
              have : beforeEq ('-' :: '-' :: t) = '-' :: '-' :: t := by
                unfold beforeEq
                apply takeWhile_every
                intro x hx
                simp only [ne_eq, decide_not, Bool.not_eq_eq_eq_not, Bool.not_true, decide_eq_false_iff_not]
                rintro rfl
                exact hne hx
              rw [this] at hpre
              exact List.isPrefixOf_iff_prefix.1 hpre
          · simp at h1
        · rw [optCandidates] at hmem
          · obtain ⟨o, ho, h1⟩ := List.mem_filterMap.1 hmem
            split at h1
            · rename_i e
              simp only [Option.some.injEq, Word.opt.injEq] at h1
              obtain ⟨rfl, rfl, rfl⟩ := h1
              obtain ⟨q1, q2⟩ := optExpand_names he
              have hd : digitVal? c = none := by
                rcases neat_spec hn ho with ⟨d, e4, hd, _⟩ | ⟨u, e4⟩
                · rw [e] at e4
                  obtain rfl : c = d := by simpa using e4
                  exact hd
                · rw [e] at e4
                  simp only [List.cons.injEq, true_and] at e4
                  exact absurd e4.1 hc
              refine ⟨parseInt_dash hd _, q1, ?_⟩
              intro x hx
              rcases q2 x hx with e6 | ⟨c', h1, h2⟩
              · exact ⟨o.1, by rw [e6]; exact ho, .inr ⟨rfl, c, by simp, e⟩⟩
              · exact ⟨_, h2, .inr ⟨rfl, c', by simp [h1], rfl⟩⟩
            · split at h1
              · rename_i hpre
                simp only [Option.some.injEq, Word.opt.injEq] at h1
                obtain ⟨rfl, rfl, rfl⟩ := h1
                obtain rfl : [(o.2, none)] = es := by simpa [optExpand] using he
                obtain ⟨u, e⟩ := List.isPrefixOf_iff_prefix.1 hpre
                rcases neat_spec hn ho with ⟨d, e4, hd, _⟩ | ⟨u', e4⟩
                · rw [e4] at e
                  simp only [List.cons_append, List.cons.injEq, true_and] at e
                  obtain ⟨rfl, e⟩ := e
                  refine ⟨parseInt_dash hd _, by simp, ?_⟩
                  intro x hx
                  obtain rfl := List.mem_singleton.1 hx
                  exact ⟨o.1, ho, .inr ⟨rfl, c, by simp, e4⟩⟩
                · rw [e4] at e
                  simp only [List.cons_append, List.cons.injEq, true_and] at e
                  exact absurd e.1 hc
              · simp at h1
          · exact fun h => absurd h hc

theorem subWords_sound {os : List (Str × α)} (hn : neat os = true) : ∀ {ws as : List Str} {fs : List α} {ns : List Int}, subWords os ws = some (as, fs) →
    mapOpt parseInt as = some ns → ns = ws.filterMap parseInt ∧ (∀ w ∈ ws, parseInt w = none → ∃ fl ∈ fs, Names os w fl) ∧ ∀ fl ∈ fs, ∃ w ∈ ws, Names os w fl
  | [], as, fs, ns, h, hm => by
    simp only [subWords, Option.some.injEq, Prod.mk.injEq] at h
    obtain ⟨rfl, rfl⟩ := h
    simp only [mapOpt, Option.some.injEq] at hm
    subst hm
    exact ⟨rfl, by simp, by simp⟩
  | w :: ws, as, fs, ns, h, hm => by
    rw [subWords] at h
    cases hc : classify os w with
    | arg =>
      rw [hc] at h
      obtain ⟨⟨as', fs'⟩, h1, h2⟩ := Option.map_eq_some_iff.1 h
      simp only [Prod.mk.injEq] at h2
      obtain ⟨rfl, rfl⟩ := h2
      rw [mapOpt] at hm
      cases hp : parseInt w with
      | none => rw [hp] at hm; simp at hm
      | some i =>
        rw [hp] at hm
        cases hq : mapOpt parseInt as' with
        | none => rw [hq] at hm; simp at hm
        | some ns' =>
          rw [hq] at hm
          obtain rfl : i :: ns' = ns := by simpa using hm
          obtain ⟨q1, q2, q3⟩ := subWords_sound hn h1 hq
          refine ⟨by rw [List.filterMap_cons, hp, q1], ?_, ?_⟩
          · intro w' hw' e
            rcases List.mem_cons.1 hw' with rfl | hw'
            · rw [hp] at e; simp at e
            · exact q2 w' hw' e
          · intro fl hfl
            obtain ⟨w', h3, h4⟩ := q3 fl hfl
            exact ⟨w', by simp [h3], h4⟩
    | opt a long v =>
      rw [hc] at h
      simp only at h
      cases he : optExpand os (fun _ => false) long a v with
      | none => rw [he] at h; simp at h
      | some es =>
        rw [he] at h
        obtain ⟨⟨as', fs'⟩, h1, h2⟩ := Option.map_eq_some_iff.1 h
        simp only [Prod.mk.injEq] at h2
        obtain ⟨rfl, rfl⟩ := h2
        obtain ⟨q1, q2, q3⟩ := subWords_sound hn h1 hm
        obtain ⟨p1, p2, p3⟩ := classify_opt hn hc he
        refine ⟨by rw [List.filterMap_cons, p1, q1], ?_, ?_⟩
        · intro w' hw' e
          rcases List.mem_cons.1 hw' with rfl | hw'
          · obtain ⟨x, hx⟩ := List.exists_mem_of_ne_nil _ p2
            exact ⟨x.1, List.mem_append_left _ (List.mem_map_of_mem hx), p3 x hx⟩
          · obtain ⟨fl, h3, h4⟩ := q2 w' hw' e
            exact ⟨fl, List.mem_append_right _ h3, h4⟩
        · intro fl hfl
          rcases List.mem_append.1 hfl with hfl | hfl
          · obtain ⟨x, hx, rfl⟩ := List.mem_map.1 hfl
            exact ⟨w, by simp, p3 x hx⟩
          · obtain ⟨w', h3, h4⟩ := q3 fl hfl
            exact ⟨w', by simp [h3], h4⟩
    | ambiguous => rw [hc] at h; simp at h
    | unknown => rw [hc] at h; simp at h
end

theorem fam_neat (f : Fam) : neat f.options = true := by cases f <;> decide

theorem names_spells {f : Fam} {w : Str} {fl : Flag} (h : Names f.options w fl) : (fl ∈ f.allowed ∨ fl = .help) ∧ Spells w fl := by
  obtain ⟨n, hn, h⟩ := h
  have key : ∀ o ∈ f.options, (o.2 ∈ f.allowed ∨ o.2 = .help) ∧ (o.1 = o.2.word true ∨ (o.1 = o.2.word false ∧ o.1.length = 2)) := by
    cases f <;> decide
  obtain ⟨k1, k2⟩ := key _ hn
  refine ⟨k1, ?_⟩
  rcases h with ⟨h1, h2⟩ | ⟨h1, c, h2, h3⟩
  · rcases k2 with k2 | ⟨k2, k3⟩
    · exact .inl ⟨h1, k2 ▸ h2⟩
    · exfalso
      have key2 : ∀ o ∈ f.options, o.1.length = 2 → ¬ "--".toList <+: o.1 := by
        cases f <;> decide
      exact key2 _ hn k3 (h1.trans h2)
  · refine .inr ⟨h1, c, h2, ?_⟩
    rcases k2 with k2 | ⟨k2, _⟩
    · exfalso
      have key3 : ∀ o ∈ f.options, o.1 = o.2.word true → o.1.length ≠ 2 := by
        cases f <;> decide
      exact key3 _ hn k2 (by simp only; rw [h3]; rfl)
    · rw [← k2]; exact h3

/-- **C96** (converse)  A command line for a family over numbers (without the word `--`) that is accepted asks for what it gets: the words that are numbers are the numbers, in their
order, every other word stands for a flag of the family, and no flag is set that is not written. -/
theorem C96_accepted {env : CmdEnv} {seed : Option Str} (hs : seed ≠ some []) {f : Fam} {ws : List Str} (_ : "--".toList ∉ ws) {c : ICmd}
    (h : subCommand env seed f.word ws = some c) :
    ∃ r : Request, r.fam = f ∧ r.seed = seed ∧ numbersOf r.items = ws.filterMap parseInt ∧ r.Asks env c ∧
      (∀ fl ∈ flagsOf r.items, fl ∈ f.allowed ∧ ∃ w ∈ ws, Spells w fl) ∧ (∀ w ∈ ws, parseInt w = none → ∃ fl ∈ flagsOf r.items, Spells w fl) ∧
      (∀ a ∈ flagsOf r.items, ∀ b ∈ flagsOf r.items, a ≠ b → a ∈ [Flag.total, .smart, .knuth2, .knuth3] → b ∉ [Flag.total, .smart, .knuth2, .knuth3]) := by
  unfold subCommand at h
  rw [fam_word, find_fam] at h
  simp only at h
  cases hw : subWords f.options ws with
  | none => rw [hw] at h; simp at h
  | some p =>
    obtain ⟨as, fs⟩ := p
    rw [hw] at h
    simp only at h
    split at h
    · simp at h
    rename_i hh
    cases hm : mapOpt parseInt as with
    | none => rw [hm] at h; simp at h
    | some ns =>
      rw [hm] at h
      simp only at h
      obtain ⟨q1, q2, q3⟩ := subWords_sound (fam_neat f) hw hm
      have hall : ∀ fl ∈ fs, fl ∈ f.allowed := by
        intro fl hfl
        obtain ⟨w, _, h2⟩ := q3 fl hfl
        rcases (names_spells h2).1 with h3 | rfl
        · exact h3
        · exact absurd (.inl hfl) hh
      have hN : numbersOf (ns.map Item.number ++ fs.map (Item.flag true)) = ns := by
        simp [numbersOf, List.filterMap_append, List.filterMap_map]
      have hF : flagsOf (ns.map Item.number ++ fs.map (Item.flag true)) = fs := by
        simp [flagsOf, List.filterMap_append, List.filterMap_map]
      have hex : ∀ a ∈ fs, ∀ b ∈ fs, a ≠ b → a ∈ [Flag.total, .smart, .knuth2, .knuth3] → b ∉ [Flag.total, .smart, .knuth2, .knuth3] := by
        intro a ha b hb hne ha4 hb4
        have hx : exclusive fs = true := by
          cases hx : exclusive fs
          · exact absurd (.inr hx) hh
          · rfl
        unfold exclusive at hx
        rw [decide_eq_true_eq] at hx
        have ha5 : a ∈ [Flag.total, .smart, .knuth2, .knuth3].filter fun f => decide (f ∈ fs) := List.mem_filter.2 ⟨ha4, by simpa using ha⟩
        have hb5 : b ∈ [Flag.total, .smart, .knuth2, .knuth3].filter fun f => decide (f ∈ fs) := List.mem_filter.2 ⟨hb4, by simpa using hb⟩
        generalize ([Flag.total, .smart, .knuth2, .knuth3].filter fun f => decide (f ∈ fs)) = l at hx ha5 hb5
        match l, hx, ha5, hb5 with
        | [x], _, ha5, hb5 => exact hne ((List.mem_singleton.1 ha5).trans (List.mem_singleton.1 hb5).symm)
      have hseed : Request.seed ⟨(seed.map (GOpt.seed true)).toList, f, ns.map Item.number ++ fs.map (Item.flag true)⟩ = seed := by
        unfold Request.seed
        cases seed with
        | none => rfl
        | some s =>
          have : s ≠ [] := fun e => hs (by rw [e])
          simp [this]
      refine ⟨⟨(seed.map (GOpt.seed true)).toList, f, ns.map Item.number ++ fs.map (Item.flag true)⟩, rfl, hseed, by rw [← q1]; exact hN, ?_, ?_, ?_, ?_⟩
      · unfold Request.Asks
        rw [hseed, hF]
        simp only
        rw [hN]
        unfold Fam.command at h
        split at h
        case h_3 =>
          simp only [Option.some.injEq] at h
          refine ⟨_, h.symm, ?_, ?_, ?_⟩
          · intro k2; rw [if_pos k2]
          · intro k3
            rw [if_neg, if_pos k3]
            intro k2
            exact hex _ k2 _ k3 (by decide) (by decide) (by decide)
          · intro k2 k3; rw [if_neg k2, if_neg k3]
        case h_14 => simp at h
        all_goals
          simp only [Option.some.injEq] at h
          exact h.symm
      · rw [hF]
        intro fl hfl
        obtain ⟨w, h1, h2⟩ := q3 fl hfl
        exact ⟨hall fl hfl, w, h1, (names_spells h2).2⟩
      · rw [hF]
        intro w hw' e
        obtain ⟨fl, h1, h2⟩ := q2 w hw' e
        exact ⟨fl, h1, (names_spells h2).2⟩
      · rw [hF]; exact hex

/-- **C96** (wrong number of numbers)  A command line with too few or too many numbers prints a message and no formula, whatever the transformations. -/
theorem C96_wrong_count (env : CmdEnv) {r : Request} (h : r.Ok) (hc : ∀ c, ¬ r.Asks env c) (ts : List (List Str)) (ht : ∀ t ∈ ts, "-T".toList ∉ t) :
    cnfgenMain env (cmdLine r.words ts) = pure none := by
  have e : r.fam.command env r.seed (numbersOf r.items) (flagsOf r.items) = none := by
    by_contra hn
    obtain ⟨c, e⟩ := Option.ne_none_iff_exists'.1 hn
    have hx := h.one
    have : ∃ c, r.Asks env c := by
      unfold Request.Asks
      unfold Fam.command at e
      split at e
      case h_3 =>
        rename_i e1 e2
        simp only [e1, e2]
        refine ⟨_, if Flag.knuth2 ∈ flagsOf r.items then 2 else if Flag.knuth3 ∈ flagsOf r.items then 3 else 0, rfl, fun k2 => if_pos k2, fun k3 => ?_, fun k2 k3 => ?_⟩
        · rw [if_neg, if_pos k3]
          intro k2
          exact hx _ k2 _ k3 (by decide) (by decide) (by decide)
        · rw [if_neg k2, if_neg k3]
      case h_14 => simp at e
      all_goals
        rename_i e1 e2
        simp only [e1, e2]
        exact ⟨_, rfl⟩
    exact this.elim hc
  unfold cnfgenMain cnfgen
  rw [splitlist_cmdLine _ _ (request_noT h) ht]
  have : (readMain env (((("cnfgen".toList :: r.words) :: ts).headD []).drop 1)) = none := by
    show readMain env r.words = none
    rw [readMain_words env h, e]
    rfl
  simp only [this, Option.map_none]

/-- **C96** (no formula named)  General options alone, with whatever transformations, print a message and no formula. -/
theorem C96_nothing (env : CmdEnv) {gen : List GOpt} (hs : ∀ a s, GOpt.seed a s ∈ gen → s.head? ≠ some '-') (ts : List (List Str)) (ht : ∀ t ∈ ts, "-T".toList ∉ t) :
    cnfgenMain env (cmdLine (gen.flatMap GOpt.words) ts) = pure none := by
  have hT : "-T".toList ∉ gen.flatMap GOpt.words := by
    intro hm
    by_cases hloud : ∀ a b, GOpt.quiet a ∈ gen → GOpt.verbose b ∉ gen
    · exact request_noT (r := ⟨gen, .empty, []⟩) ⟨by simp [flagsOf], by simp [flagsOf], hloud, hs⟩ (List.mem_append_left _ hm)
    · obtain ⟨g, hg, hw⟩ := List.mem_flatMap.1 hm
      refine request_noT (r := ⟨[g], .empty, []⟩) ⟨by simp [flagsOf], by simp [flagsOf], ?_, ?_⟩ (List.mem_append_left _ (by simpa using hw))
      · intro a b h1 h2
        have h3 := (List.mem_singleton.1 h1).trans (List.mem_singleton.1 h2).symm
        cases h3
      · intro a s h1
        exact hs a s ((List.mem_singleton.1 h1) ▸ hg)
  unfold cnfgenMain cnfgen
  rw [splitlist_cmdLine _ _ hT ht]
  rw [show (((("cnfgen".toList :: gen.flatMap GOpt.words) :: ts).headD []).drop 1) = gen.flatMap GOpt.words from rfl]
  have hm : ∀ l, readMain env (gen.flatMap GOpt.words) = some l → l.cmd = none := by
    intro l e
    unfold readMain readLine parseMain at e
    split at e
    · simp at e
    rename_i es rest e1
    split at e1
    · simp at e1
    have := leading_gen gen hs (rest := []) rfl
    rw [List.append_nil] at this
    rw [this] at e1
    simp only [Option.some.injEq, Prod.mk.injEq] at e1
    obtain ⟨rfl, rfl⟩ := e1
    simp only at e
    split at e
    · simp at e
    split at e
    · simp at e
    split at e
    · simp at e
    simp only [Option.some.injEq] at e
    rw [← e]
  cases e : readMain env (gen.flatMap GOpt.words) with
  | none =>
    have e : (readMain env (((("cnfgen".toList :: gen.flatMap GOpt.words) :: ts).headD []).drop 1)) = none := e
    simp only [e, Option.map_none]
  | some l =>
    have e' : (readMain env (((("cnfgen".toList :: gen.flatMap GOpt.words) :: ts).headD []).drop 1)) = some l := e
    have e2 : MainLine.args env l = ⟨l.verbose, l.sink, raise .attributeError⟩ := by
      unfold MainLine.args; rw [hm l e]
    simp only [e', Option.map_some, e2]
    split
    · rename_i a ts' h1 h2
      simp only [Option.some.injEq] at h1
      subst h1
      rfl
    · rfl

/-! ### Examples -/

/-- A machine as assumed. -/
def exEnv : CmdEnv := ⟨.text, fun _ => true, fun _ k _ => ⟨fun _ => ((List.range k.toNat).map (· + 1), List.replicate k.toNat true), fun l m => l.take m, id⟩, fun h => h.toNat, Nat.sqrt, fun _ _ => [], fun _ _ _ => none,
  fun _ _ _ => none, fun _ => List.range, fun _ => List.range, fun _ n => List.replicate n 1⟩

example : exEnv.Ok := by
  refine ⟨rfl, ?_, fun h => (Nat.lt_two_pow_self).le, fun z => Nat.sqrt_eq' z, ?_⟩
  · intro s k n hk
    refine ⟨fun t => ⟨?_, ?_, by simp [exEnv], by simp [exEnv]⟩, ?_, fun s => List.Perm.refl _⟩
    · exact List.Nodup.map (fun a b e => by simpa using e) List.nodup_range
    · intro i hi
      obtain ⟨j, hj, rfl⟩ := List.mem_map.1 hi
      have := List.mem_range.1 hj
      omega
    · intro l m hm
      exact ⟨by simp [exEnv, hm], (List.take_sublist _ _).subperm⟩
  · intro s n m
    refine ⟨List.Perm.refl _, List.Perm.refl _, by simp [exEnv], ?_⟩
    intro x hx
    exact .inl (List.eq_of_mem_replicate hx)

/-- `cnfgen -q --seed 7 op --tot 5 -p`: an abbreviation and a short name. -/
example : (readMain exEnv ["-q".toList, "--seed".toList, "7".toList, "op".toList, "--tot".toList, "5".toList, "-p".toList]).isSome = true := by decide
example : (readMain exEnv ["op".toList, "--knuth".toList, "5".toList]).isNone = true := by decide
example : (readMain exEnv ["op".toList, "-ts".toList, "5".toList]).isNone = true := by decide
example : (readMain exEnv ["php".toList, "5".toList]).isNone = true := by decide
example : (readMain exEnv ["php".toList, "-5".toList, "4".toList]).isSome = true := by decide

/-- `cnfgen -q php 5 --functional 4 -T xor -T shuffle -v`. -/
example : (⟨[.quiet false], .php, [.number 5, .flag true .functional, .number 4]⟩ : Request).Ok ∧
    (⟨[.quiet false], .php, [.number 5, .flag true .functional, .number 4]⟩ : Request).Asks exEnv (.php 5 4 true false) ∧
    (∀ t ∈ [TReq.number .xor none, .shuffle [(false, .noVars)]], t.Ok ∧ t.Sensible) := by
  refine ⟨⟨by decide, by decide, ?_, ?_⟩, rfl, ?_⟩
  · intro a b h1 h2
    simp at h2
  · intro a s h1
    simp at h1
  · simp [TReq.Ok, TReq.Sensible]

end NDP.Cnfgen
