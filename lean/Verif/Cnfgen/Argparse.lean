import Verif.Cnfgen.CmdInts
/-
  C96: from the words of the command line to the formula.  The fragment of Python's `argparse` that `cnfgen` uses for the families over numbers and for the transformations, and the
  parsers `cnfgen.py` and the families set up.  Command lines with the word `--` are not covered (`argparse` treats everything after it as an argument; details differ between versions).
-/
namespace NDP.Cnfgen
open NDP

/-! ### Model: argparse -/

section
variable {α : Type}

/-- What `argparse` takes a word for (`_parse_optional`). -/
inductive Word (α : Type) where
  | arg
  | opt (action : α) (long : Bool) (value : Option Str)
  | ambiguous
  | unknown
  deriving DecidableEq

/-- `self._option_string_actions`: the action of an option string. -/
def optLookup (os : List (Str × α)) (s : Str) : Option α := (os.find? fun o => decide (o.1 = s)).map (·.2)

/-- `_negative_number_matcher`: `^-\d+$|^-\d*\.\d+$` (ASCII digits; a final line break, which `$` allows, is left out). -/
def negLike : Str → Bool
  | '-' :: t =>
    (match t.dropWhile fun c => (digitVal? c).isSome with
      | [] => decide (t ≠ [])
      | '.' :: f => decide (f ≠ []) && f.all fun c => (digitVal? c).isSome
      | _ => false)
  | _ => false

/-- The part before the first `=`, and the part after it, if there is one. -/
def beforeEq (s : Str) : Str := s.takeWhile (· ≠ '=')
def afterEq (s : Str) : Option Str := if '=' ∈ s then some ((s.dropWhile (· ≠ '=')).drop 1) else none

/-- `_get_option_tuples`: the options a word may abbreviate, or a short option followed by its value. -/
def optCandidates (os : List (Str × α)) (s : Str) : List (Word α) :=
  match s with
  | '-' :: '-' :: _ => os.filterMap fun o => if (beforeEq s).isPrefixOf o.1 then some (.opt o.2 true (afterEq s)) else none
  | '-' :: c :: t => os.filterMap fun o =>
      if o.1 = ['-', c] then some (.opt o.2 false (some t)) else if s.isPrefixOf o.1 then some (.opt o.2 false none) else none
  | _ => []

/-- `_parse_optional`, for parsers none of whose options looks like a negative number. -/
def classify (os : List (Str × α)) (s : Str) : Word α :=
  match s with
  | [] => .arg
  | c :: t =>
    if c ≠ '-' then .arg else
    match optLookup os s with
    | some a => .opt a (decide (t.head? = some '-')) none
    | none =>
      if t = [] then .arg else
      match (afterEq s).bind fun _ => optLookup os (beforeEq s) with
      | some a => .opt a (decide (t.head? = some '-')) (afterEq s)
      | none =>
        match optCandidates os s with
        | _ :: _ :: _ => .ambiguous
        | [w] => w
        | [] => if negLike s then .arg else if ' ' ∈ s then .arg else .unknown

/-- The loop in `consume_optional` for an option `a` without value, written with one dash and directly followed by letters: the next letter is an option again; `none` is an error
(for `-x=` an `IndexError` in older versions). -/
def optLetters (os : List (Str × α)) (takes : α → Bool) (a : α) : Str → Option (List (α × Option Str))
  | [] => none
  | c :: e =>
    match optLookup os ['-', c] with
    | none => none
    | some b =>
      if e = [] then some [(a, none), (b, none)]
      else if takes b then some [(a, none), (b, some e)]
      else (optLetters os takes b e).map ((a, none) :: ·)

/-- The options in a word, with a value given in the same word: an option that takes a value takes it. -/
def optExpand (os : List (Str × α)) (takes : α → Bool) (long : Bool) (a : α) : Option Str → Option (List (α × Option Str))
  | none => some [(a, none)]
  | some e => if takes a then some [(a, some e)] else if long then none else optLetters os takes a e

/-- The parser of a sub-command whose options take no value (`_parse_known_args`, positional arguments of one word each): the arguments and the options.  Any error, unknown words
included, is `none`. -/
def subWords (os : List (Str × α)) : List Str → Option (List Str × List α)
  | [] => some ([], [])
  | w :: ws =>
    match classify os w with
    | .arg => (subWords os ws).map fun r => (w :: r.1, r.2)
    | .opt a long v =>
      match optExpand os (fun _ => false) long a v with
      | none => none
      | some es => (subWords os ws).map fun r => (r.1, es.map (·.1) ++ r.2)
    | _ => none

/-- The parser above it (sub-parsers are an action with `nargs=PARSER`): the options before the first argument, and everything from that argument on. -/
def leading (os : List (Str × α)) (takes : α → Bool) : List Str → Option (List (α × Str) × List Str)
  | [] => some ([], [])
  | w :: ws =>
    match classify os w with
    | .arg => some ([], w :: ws)
    | .opt a long v =>
      match optExpand os takes long a v with
      | none => none
      | some es =>
        let given := es.map fun e => (e.1, e.2.getD [])
        if es.any fun e => takes e.1 && e.2.isNone then
          match ws with
          | [] => none
          | v :: ws' =>
            match classify os v with
            | .arg => (leading os takes ws').map fun r => (given.dropLast ++ (given.getLast?.map fun e => (e.1, v)).toList ++ r.1, r.2)
            | _ => none
        else (leading os takes ws).map fun r => (given ++ r.1, r.2)
    | _ => none

/-- `parse_args`: every word is classified before anything else is done, and an ambiguous one is an error wherever it is. -/
def parseMain (os : List (Str × α)) (takes : α → Bool) (ws : List Str) : Option (List (α × Str) × List Str) :=
  if ws.any fun w => match classify os w with | .ambiguous => true | _ => false then none else leading os takes ws
end

/-! ### Model: the parsers of cnfgen -/

/-- `cnfgen.py` 53-94 (`setup_command_line_args`), and `-h`. -/
inductive MOpt where
  | help | version | output | format | seed | verbose | quiet
  deriving DecidableEq

def mainOptions : List (Str × MOpt) :=
  [("-h".toList, .help), ("--help".toList, .help), ("-V".toList, .version), ("--version".toList, .version), ("--output".toList, .output), ("-o".toList, .output),
   ("--output-format".toList, .format), ("-of".toList, .format), ("--seed".toList, .seed), ("-S".toList, .seed), ("--verbose".toList, .verbose), ("-v".toList, .verbose),
   ("--quiet".toList, .quiet), ("-q".toList, .quiet)]

def MOpt.takes : MOpt → Bool
  | .output | .format | .seed => true
  | _ => false

/-- The options of the families over numbers, and of `shuffle` (all are flags). -/
inductive Flag where
  | help | functional | onto | total | smart | knuth2 | knuth3 | plant | noFlips | noVars | noClauses
  deriving DecidableEq

def helpOptions : List (Str × Flag) := [("-h".toList, .help), ("--help".toList, .help)]

/-- The families over numbers only. -/
inductive Fam where
  | php | bphp | op | parity | count | ram | ptn | cliquecoloring | randkcnf | or | and | empty | emptyclause
  deriving DecidableEq

def Fam.all : List Fam := [.php, .bphp, .op, .parity, .count, .ram, .ptn, .cliquecoloring, .randkcnf, .or, .and, .empty, .emptyclause]

/-- `pigeonhole.py` 199, 268; `ordering.py` 162; `counting.py` 100, 144; `ramsey.py` 122, 150; `cliquecoloring.py` 112; `randomformulas.py` 128; `simple.py` 15, 48, 82, 105. -/
def Fam.name : Fam → Str
  | .php => "php".toList
  | .bphp => "bphp".toList
  | .op => "op".toList
  | .parity => "parity".toList
  | .count => "count".toList
  | .ram => "ram".toList
  | .ptn => "ptn".toList
  | .cliquecoloring => "cliquecoloring".toList
  | .randkcnf => "randkcnf".toList
  | .or => "or".toList
  | .and => "and".toList
  | .empty => "empty".toList
  | .emptyclause => "emptyclause".toList

/-- The options of the sub-command: `pigeonhole.py` 211-214, `ordering.py` 173-180 (the other families have only `-h`). -/
def Fam.options : Fam → List (Str × Flag)
  | .php => helpOptions ++ [("--functional".toList, .functional), ("--onto".toList, .onto)]
  | .op => helpOptions ++ [("--total".toList, .total), ("-t".toList, .total), ("--smart".toList, .smart), ("-s".toList, .smart), ("--knuth2".toList, .knuth2),
      ("--knuth3".toList, .knuth3), ("--plant".toList, .plant), ("-p".toList, .plant)]
  | _ => helpOptions

/-- The parts of the machine and of the run the command line depends on: how `-` is opened for writing, which files can be, the random source for a seed, the logarithm of
`pigeonhole.py` 186 and the square root of `ramsey.py` 62, the header of a formula, and the families and transformations over graphs. -/
structure CmdEnv where
  dash : Sink
  canOpen : Str → Bool
  rnd : Option Str → Int → Int → RandomSource
  bits : Int → Nat
  isqrt : Nat → Nat
  header : ICmd → CNF Str → Str
  other : Option Str → Str → List Str → Option ICmd
  otherT : Option Str → Str → List Str → Option Trans
  vs : Option Str → Nat → List Nat
  cs : Option Str → Nat → List Nat
  signs : Option Str → Nat → List Int

/-- The positional arguments and `build_cnf` of the sub-command: `pigeonhole.py` 209-210, 217-223, 278-289; `ordering.py` 172, 183-189; `counting.py` 110, 112-115, 154-155, 157-166;
`ramsey.py` 132-134, 160; `cliquecoloring.py` 122-124; `randomformulas.py` 138-149; `simple.py` 25-26, 58-59.  `none`: too few or too many arguments. -/
def Fam.command (env : CmdEnv) (seed : Option Str) : Fam → List Int → List Flag → Option ICmd
  | .php, [p, h], fs => some (.php p h (decide (Flag.functional ∈ fs)) (decide (Flag.onto ∈ fs)))
  | .bphp, [p, h], _ => some (.bphp p h (env.bits h))
  | .op, [n], fs => some (.op n (decide (Flag.total ∈ fs)) (decide (Flag.smart ∈ fs)) (decide (Flag.plant ∈ fs))
      (if Flag.knuth2 ∈ fs then 2 else if Flag.knuth3 ∈ fs then 3 else 0))
  | .parity, [n], _ => some (.parity n)
  | .count, [m, p], _ => some (.count m p)
  | .ram, [s, k, n], _ => some (.ram s k n)
  | .ptn, [n], _ => some (.ptn env.isqrt n)
  | .cliquecoloring, [n, k, c], _ => some (.cliquecoloring n k c)
  | .randkcnf, [k, n, m], _ => some (.randkcnf (env.rnd seed k n) k n m)
  | .or, [p, n], _ => some (.or p n)
  | .and, [p, n], _ => some (.and p n)
  | .empty, [], _ => some (.other .empty)
  | .emptyclause, [], _ => some (.other .emptyclause)
  | _, _, _ => none

/-- The group of `ordering.py` 173-179: at most one of these. -/
def exclusive (fs : List Flag) : Bool :=
  decide ((([Flag.total, .smart, .knuth2, .knuth3].filter fun f => decide (f ∈ fs)).length) ≤ 1)

/-- A sub-command (`none`: a message, or the help text, and an exit). -/
def subCommand (env : CmdEnv) (seed : Option Str) (name : Str) (ws : List Str) : Option ICmd :=
  match Fam.all.find? fun f => decide (f.name = name) with
  | none => env.other seed name ws
  | some f =>
    match subWords f.options ws with
    | none => none
    | some (as, fs) =>
      if Flag.help ∈ fs ∨ exclusive fs = false then none else
      match mapOpt parseInt as with
      | none => none
      | some ns => f.command env seed ns fs

/-- The parsed command line of the formula.  No sub-command is no error for `argparse` (Python 3). -/
structure MainLine (γ : Type) where
  verbose : Bool
  sink : Sink
  latex : Bool
  cmd : Option γ

/-- The last value of an option. -/
def lastOf (o : MOpt) (es : List (MOpt × Str)) : Option Str := ((es.filter fun e => decide (e.1 = o)).getLast?).map (·.2)

/-- `cnfgen.py` 53-94, 170-189, 208 (`parser.parse_args`); `sub`: the parsers of the sub-commands. -/
def readLine {γ : Type} (env : CmdEnv) (sub : Option Str → Str → List Str → Option γ) (ws : List Str) : Option (MainLine γ) :=
  match parseMain mainOptions MOpt.takes ws with
  | none => none
  | some (es, rest) =>
    let has := fun o => es.any fun e => decide (e.1 = o)
    if has .help || has .version || (has .verbose && has .quiet) then none else
    let fmt := (lastOf .format es).getD "dimacs".toList
    if (es.filter fun e => decide (e.1 = MOpt.format)).any fun e => decide (e.2 ≠ "latex".toList ∧ e.2 ≠ "dimacs".toList) then none else
    if (es.filter fun e => decide (e.1 = MOpt.output)).any fun e => decide (e.2 ≠ "-".toList) && !env.canOpen e.2 then none else
    let sink := if (lastOf .output es).getD "-".toList = "-".toList then env.dash else .binary
    let seed := (lastOf .seed es).bind fun s => if s = [] then none else some s
    match rest with
    | [] => some ⟨!has .quiet, sink, decide (fmt = "latex".toList), none⟩
    | name :: args =>
      match sub seed name args with
      | none => none
      | some c => some ⟨!has .quiet, sink, decide (fmt = "latex".toList), some c⟩

def readMain (env : CmdEnv) (ws : List Str) : Option (MainLine ICmd) := readLine env (subCommand env) ws

/-- `args.generator.build_cnf(args)`: without sub-command there is no `generator`. -/
def MainLine.args (env : CmdEnv) (l : MainLine ICmd) : GenArgs Str :=
  match l.cmd with
  | none => ⟨l.verbose, l.sink, raise .attributeError⟩
  | some c => ⟨l.verbose, l.sink, do let F ← c.cnf false; pure (env.header c F, F)⟩

/-- The seed of the run: `random.seed(args.seed)` (`cnfgen.py` 214-215). -/
def runSeed (ws : List Str) : Option Str :=
  match parseMain mainOptions MOpt.takes ws with
  | none => none
  | some (es, _) => (lastOf .seed es).bind fun s => if s = [] then none else some s

/-- The transformations that take an optional number, with its standard value (`substitutions.py` 544-650). -/
inductive TFam where
  | or | xor | eq | neq | maj | one | lift
  deriving DecidableEq

def TFam.all : List TFam := [.or, .xor, .eq, .neq, .maj, .one, .lift]

def TFam.name : TFam → Str
  | .or => "or".toList
  | .xor => "xor".toList
  | .eq => "eq".toList
  | .neq => "neq".toList
  | .maj => "maj".toList
  | .one => "one".toList
  | .lift => "lift".toList

def TFam.trans : TFam → Option Int → Trans
  | .or, n => .or (n.getD 2)
  | .xor, n => .xor (n.getD 2)
  | .eq, n => .eq (n.getD 3)
  | .neq, n => .neq (n.getD 3)
  | .maj, n => .maj (n.getD 3)
  | .one, n => .one (n.getD 3)
  | .lift, n => .lift (n.getD 3)

/-- `shuffle.py` 98-101. -/
def shuffleOptions : List (Str × Flag) := helpOptions ++
  [("--no-polarity-flips".toList, .noFlips), ("-p".toList, .noFlips), ("--no-variables-permutation".toList, .noVars), ("-v".toList, .noVars),
   ("--no-clauses-permutation".toList, .noClauses), ("-c".toList, .noClauses)]

/-- A sub-command without arguments: the flags. -/
def noArgs (os : List (Str × Flag)) (ws : List Str) : Option (List Flag) :=
  match subWords os ws with
  | some ([], fs) => if Flag.help ∈ fs then none else some fs
  | _ => none

/-- A sub-command with one optional number. -/
def optNumber (ws : List Str) : Option (Option Int) :=
  match subWords helpOptions ws with
  | some ([], []) => some none
  | some ([w], []) => (parseInt w).map some
  | _ => none

/-- `cnfgen.py` 150-167, 211 (`t_parser.parse_args`); `none` inside: no transformation named. -/
def readTrans (env : CmdEnv) (seed : Option Str) (ws : List Str) : Option (Option Trans) :=
  match parseMain helpOptions (fun _ => false) ws with
  | none => none
  | some (es, rest) =>
    if es ≠ [] then none else
    match rest with
    | [] => some none
    | name :: args =>
      if name = "none".toList then (noArgs helpOptions args).map fun _ => some .none
      else if name = "flip".toList then (noArgs helpOptions args).map fun _ => some .flip
      else if name = "ite".toList then (noArgs helpOptions args).map fun _ => some .ite
      else if name = "shuffle".toList then (noArgs shuffleOptions args).map fun fs =>
        some (.shuffle (decide (Flag.noFlips ∈ fs)) (decide (Flag.noVars ∈ fs)) (decide (Flag.noClauses ∈ fs)) (env.vs seed) (env.cs seed) (env.signs seed))
      else match TFam.all.find? fun t => decide (t.name = name) with
        | some t => (optNumber args).map fun n => some (t.trans n)
        | none => (env.otherT seed name args).map some

/-- `cnfgen.py` 198-265 for the output format `dimacs` (for `latex` see C94). -/
def cnfgenMain (env : CmdEnv) (argv : List Str) : M (Option Str) :=
  cnfgen id (fun ws => (readMain env ws).map (MainLine.args env)) (readTrans env (runSeed (((splitlist argv "-T".toList).headD []).drop 1))) argv

end NDP.Cnfgen
