import Verif.Model.Program
import Verif.Cnfgen.Argparse
/-
  `main.py` from the words of its command line: the parser of lines 137-170, as `argparse` works through the words, and what follows (`Model/Program.lean`).
  Of `argparse` the parts in `Cnfgen/Argparse.lean` are used (Python 3.8 to 3.11: an ambiguous word is an error before anything else is done).
-/
namespace NDP
open Cnfgen

/-- `main.py` 139-170 and the `-h` that `argparse` adds. -/
inductive SOpt where
  | help | verbos | veryVerbos | quiet | quietNodes | line | lineFile | dimacs | graph | solution | noStats | threads | exit | verify | rdb | gdb | gnm | size | thief | fact | mult | mode
  | version
  deriving DecidableEq, Repr

/-- The option strings, in the order in which they are added. -/
def solverOptions : List (Str × SOpt) :=
  [("-h".toList, .help), ("--help".toList, .help),
   ("-v".toList, .verbos), ("--verbos".toList, .verbos),                                   -- 140
   ("-vv".toList, .veryVerbos), ("--very-verbos".toList, .veryVerbos),                     -- 141
   ("-q".toList, .quiet), ("--quiet".toList, .quiet),                                      -- 142
   ("-qn".toList, .quietNodes), ("--quiet-but-unique-nodes".toList, .quietNodes),          -- 143
   ("-l".toList, .line), ("--line-input".toList, .line),                                   -- 145
   ("-lf".toList, .lineFile), ("--line-input-file".toList, .lineFile),                     -- 146
   ("-d".toList, .dimacs), ("--dimacs".toList, .dimacs),                                   -- 147
   ("-g".toList, .graph), ("--output-graph-file".toList, .graph),                          -- 148
   ("-s".toList, .solution), ("--output-solution-file".toList, .solution),                 -- 149
   ("-ns".toList, .noStats), ("--no-stats".toList, .noStats),                              -- 150
   ("-t".toList, .threads), ("--threads".toList, .threads),                                -- 151
   ("-e".toList, .exit), ("--exit-upon-solving".toList, .exit),                            -- 152
   ("-verify".toList, .verify), ("--verify".toList, .verify),                              -- 153
   ("-rdb".toList, .rdb), ("--use-runtime-db".toList, .rdb),                               -- 154
   ("-gdb".toList, .gdb), ("--use-global-db".toList, .gdb),                                -- 155
   ("-gnm".toList, .gnm), ("--gdb-no-mem".toList, .gnm),                                   -- 156
   ("-z".toList, .size), ("--sort-by-size".toList, .size),                                 -- 157
   ("-thief".toList, .thief), ("--thief-method".toList, .thief),                           -- 158
   ("-fact".toList, .fact), ("--factorize".toList, .fact),                                 -- 159
   ("-mult".toList, .mult), ("--multiply".toList, .mult),                                  -- 160
   ("-m".toList, .mode), ("--mode".toList, .mode),                                         -- 162
   ("--version".toList, .version)]                                                         -- 170

/-- How many values the option takes (`action="store_true"`: none; `nargs=2`, line 160). -/
def SOpt.arity : SOpt → Nat
  | .line | .lineFile | .dimacs | .graph | .threads | .mode => 1
  | .mult => 2
  | _ => 0

/-- `_parse_known_args`: the words with what they are taken for.  Everything after `--` is an argument; `--` itself is no value. -/
def wordClasses : List Str → List (Str × Word SOpt)
  | [] => []
  | w :: ws =>
    if w = "--".toList then (w, .unknown) :: ws.map fun v => (v, .arg)
    else (w, classify solverOptions w) :: wordClasses ws

/-- What the parser meets, in order. -/
inductive Ev where
  | act (o : SOpt) (vals : List Str)
  | extra
  | err
  deriving DecidableEq, Repr

/-- The actions of the options in one word; the last takes the words `vs` if it has no value in the word itself. -/
def optEvents (es : List (SOpt × Option Str)) (vs : List Str) : List Ev :=
  es.dropLast.map (fun e => .act e.1 []) ++ (es.getLast?.map fun e => Ev.act e.1 (match e.2 with | some v => [v] | none => vs)).toList

/-- The number of words the options in one word want after it: `none` if a single value is given in the word to an option that wants two (`match_argument`, an error). -/
def wordsWanted (es : List (SOpt × Option Str)) : Option Nat :=
  match es.getLast? with
  | some (o, some _) => if o.arity = 1 then some 0 else none
  | some (o, none) => some o.arity
  | none => some 0

/-- `consume_optional` and the loop around it: there are no positional arguments, so that a word that is no option and no value is left over (an error in the end, `parse_args`). -/
def events : List (Str × Word SOpt) → List Ev
  | [] => []
  | (_, .arg) :: ws => .extra :: events ws
  | (_, .unknown) :: ws => .extra :: events ws
  | (_, .ambiguous) :: _ => [.err]
  | (_, .opt o long v) :: ws =>
    match optExpand solverOptions (fun o => decide (o.arity ≠ 0)) long o v with
    | none => [.err]
    | some es =>
      match wordsWanted es with
      | some 0 => optEvents es [] ++ events ws
      | some 1 =>
        (match ws with
          | (a, .arg) :: ws' => optEvents es [a] ++ events ws'
          | _ => [.err])
      | some 2 =>
        (match ws with
          | (a, .arg) :: (b, .arg) :: ws' => optEvents es [a, b] ++ events ws'
          | _ => [.err])
      | _ => [.err]

/-- The files that can be opened, and the standard input (`argparse.FileType('r')`, 146-147; texts that can be decoded). -/
structure Files where
  opens : Str → Option Str
  stdin : Str

def Files.open? (fs : Files) (name : Str) : Option InFile :=
  if name = "-".toList then some ⟨"<stdin>".toList, fs.stdin⟩ else (fs.opens name).map fun t => ⟨name, t⟩

/-- The values of `-m` (169). -/
def modeOf (s : Str) : Option Mode := [Mode.flo, .flop, .lo, .lou, .normal].find? fun m => decide (m.text = s)

/-- The parser while it works: the actions seen, whether words are left over, the values so far. -/
structure Parsing where
  seen : List SOpt := []
  extras : Bool := false
  opts : Opts := {}
  graph : Option Str := none

/-- The mutually exclusive groups (139-147). -/
def SOpt.group : SOpt → Nat
  | .verbos | .veryVerbos | .quiet | .quietNodes => 1
  | .line | .lineFile | .dimacs => 2
  | _ => 0

def Opts.setArgs (o : Opts) (f : Args → Args) : Opts := { o with main := { o.main with args := f o.main.args } }

/-- `take_action` for the options that store something: convert the values (`none`: an error) and store them. -/
def storeOpt (fs : Files) (p : Parsing) : SOpt → List Str → Option Parsing
  | .verbos, _ => some { p with opts := { p.opts with verbos := true } }
  | .veryVerbos, _ => some { p with opts := { p.opts with veryVerbos := true } }
  | .quiet, _ => some { p with opts := { p.opts with quiet := true } }
  | .quietNodes, _ => some { p with opts := { p.opts with quietNodes := true } }
  | .line, [v] => some { p with opts := { p.opts with lineInput := some v } }
  | .lineFile, [v] => (fs.open? v).map fun f => { p with opts := { p.opts with lineFile := some f } }
  | .dimacs, [v] => (fs.open? v).map fun f => { p with opts := { p.opts with dimacs := some f } }
  | .graph, [v] => some { p with graph := some v }
  | .solution, _ => some { p with opts := { p.opts with main := { p.opts.main with outputSolution := true } } }
  | .noStats, _ => some { p with opts := p.opts.setArgs fun a => { a with noStats := true } }
  | .threads, [v] => (parseInt v).map fun n => { p with opts := { p.opts with threads := n } }
  | .exit, _ => some { p with opts := p.opts.setArgs fun a => { a with exitUponSolving := true } }
  | .verify, _ => some { p with opts := { p.opts with main := { p.opts.main with verify := true } } }
  | .rdb, _ => some { p with opts := p.opts.setArgs fun a => { a with useRuntimeDb := true } }
  | .gdb, _ => some { p with opts := p.opts.setArgs fun a => { a with useGlobalDb := true } }
  | .gnm, _ => some { p with opts := p.opts.setArgs fun a => { a with gdbNoMem := true } }
  | .size, _ => some { p with opts := p.opts.setArgs fun a => { a with sortBySize := true } }
  | .thief, _ => some { p with opts := p.opts.setArgs fun a => { a with thief := true } }
  | .fact, _ => some { p with opts := p.opts.setArgs fun a => { a with factorize := true } }
  | .mult, [x, y] => (parseInt x).bind fun i => (parseInt y).map fun j => { p with opts := { p.opts with multiply := some (i, j) } }
  | .mode, [v] => (modeOf v).map fun m => { p with opts := p.opts.setArgs fun a => { a with mode := m } }
  | _, _ => none

/-- How parsing ends: `sys.exit` with a status, or the options. -/
inductive Line where
  | exits (status : Nat)
  | runs (o : Opts) (graph : Option Str)
  deriving DecidableEq, Repr

/-- The rest of `_parse_known_args` and `parse_args`: one action after the other, each with its values and then the check of the mutually exclusive groups; in the end the required
group and the words left over.  `-h` and `--version` end the program where they are met. -/
def runEvents (fs : Files) : Parsing → List Ev → Line
  | p, [] =>
    if p.seen.any (fun o => decide (o.group = 2)) = false then .exits 2
    else if p.extras then .exits 2
    else .runs p.opts p.graph
  | _, .err :: _ => .exits 2
  | p, .extra :: es => runEvents fs { p with extras := true } es
  | p, .act o vals :: es =>
    if o = .help ∨ o = .version then .exits 0 else
    match storeOpt fs p o vals with
    | none => .exits 2
    | some q =>
      if o.group ≠ 0 ∧ p.seen.any (fun o' => decide (o'.group = o.group ∧ o' ≠ o)) = true then .exits 2
      else runEvents fs { q with seen := o :: p.seen } es

/-- `args = parser.parse_args()` (185). -/
def parseLine (fs : Files) (ws : List Str) : Line :=
  let cs := wordClasses ws
  if cs.any (fun c => decide (c.2 = .ambiguous)) then .exits 2 else runEvents fs {} (events cs)

section
variable {H : Type} [DecidableEq H] (hash : Str → H)

/-- `python main.py ws` (132-257): `none`: it never ends.  What is drawn with `-g` is in `Model/Draw.lean`; it has no effect on the rest (C45). -/
def mainProgram (fs : Files) (ws : List Str) (env : EnvChoice) (g : Gdb H) : Option (Outcome H) :=
  match parseLine fs ws with
  | .exits n => some { status := n, shown := [.usage] }
  | .runs o _ => program hash o env g

end
end NDP
