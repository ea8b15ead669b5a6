import Verif.Model.Task
/-
  `main.py` as a program: the checks of the options, the log level, what is shown on the terminal, the name of the
  solution file and the exit status.
-/
namespace NDP

/-- An open input file: its name (`.name`) and its text. -/
structure InFile where
  name : Str
  text : Str
  deriving DecidableEq, Repr

/-- `main.py` 137-170: the options as `argparse` delivers them.  `main` has the options that need no check; its fields
`threads` and `multiply` are those of `threads` and `multiply` here once they are checked. -/
structure Opts where
  verbos : Bool := false
  veryVerbos : Bool := false
  quiet : Bool := false
  quietNodes : Bool := false
  lineInput : Option Str := none
  lineFile : Option InFile := none
  dimacs : Option InFile := none
  threads : Int := 1
  multiply : Option (Int × Int) := none
  main : MainArgs := { args := {} }
  deriving DecidableEq, Repr

/-- The levels of the `logging` module that are used. -/
inductive Level where
  | debug | info | warning | critical
  deriving DecidableEq, Repr

/-- A `logger.info` message is shown. -/
def Level.showsInfo : Level → Bool
  | .debug | .info => true
  | .warning | .critical => false

/-- Lines about the outcome of the run.  Left out: progress, messages of the database adaptor, "Solving problem ID" and
the like, the message that `-fact` is skipped, times and memory. -/
inductive Shown (H : Type) where
  | usage                                              -- a message about the options and the help text
  | report (r : Report H) (task : List TaskMsg)        -- PatternSolver.py 631: verdict, solution, numbers, task
  | uniques (n : Nat)                                  -- PatternSolver.py 627
  | written (name : Str)                               -- main.py 118
  | verified (b : Bool)                                -- main.py 122-125
  | refused                                            -- Multiply.py 36, 55, main.py 93-94
  | error (e : PyErr)                                  -- main.py 128-129
  deriving DecidableEq, Repr

/-- How the program ends. -/
structure Outcome (H : Type) where
  status : Nat
  shown : List (Shown H) := []
  file : Option (Str × Str) := none                    -- name and content of the file that is written
  deriving DecidableEq, Repr

/-- `os.path.splitext(name)[0]`. -/
def pathRoot (name : Str) : Str :=
  let r := name.reverse
  let e := r.takeWhile fun c => c != '.' && c != '/'
  match r.drop e.length with
  | '.' :: b => if (b.takeWhile (· != '/')).all (· == '.') then name else b.reverse
  | _ => name

/-- The text of the option `-m`. -/
def Mode.text : Mode → Str
  | .flo => "flo".toList
  | .flop => "flop".toList
  | .lo => "lo".toList
  | .lou => "lou".toList
  | .normal => "normal".toList

/-- `main.py` 107-114: the name of the solution file; `PAT.problem_id` (107) is always replaced (110-111). -/
def solutionName (input : Str) (m : Mode) : Str := pathRoot input ++ '_' :: m.text ++ ".sol".toList

/-- `main.py` 57-71: the input, and for files the name.  (`if args.line_input:` is false for the empty string; then all
three are false and `InputReader(None, None)` raises the same exception as for an empty string, `InputReader.py` 48-49.) -/
def chooseInput (o : Opts) : InputType × Str × Str :=
  match o.lineInput, o.lineFile, o.dimacs with
  | some (c :: cs), _, _ => (.sl, c :: cs, [])
  | _, some f, _ => (.slf, f.text, f.name)
  | _, none, some f => (.dimacs, f.text, f.name)
  | _, none, none => (.sl, [], [])

/-- `main.py` 187-191 and 246-251: the log level in the end (`configs.py` 64: WARNING). -/
def logLevel (o : Opts) : Level :=
  if o.verbos then .info
  else if o.veryVerbos then .debug
  else if o.quiet || o.quietNodes then .critical
  else .warning

/-- `main.py` 222-244: the exit status if the options are refused. -/
def refusal (o : Opts) : Option Nat :=
  let line := match o.lineInput with | some (_ :: _) => true | _ => false
  if o.threads < 0 then some 3                                                            -- 222-225
  else if o.lineInput.isNone && o.lineFile.isNone && o.dimacs.isNone then some 3          -- 228-231
  else if (line && o.lineFile.isSome) || (line && o.dimacs.isSome) || (o.dimacs.isSome && o.lineFile.isSome) then some 3
  else if o.main.args.gdbNoMem && !o.main.args.useGlobalDb then some 2                    -- 240-241, parser.error
  else match o.multiply with                                                              -- 244-245
    | some (x, y) => if x ≤ 1 ∨ y ≤ 1 then some 2 else none
    | none => none

/-- The options `Main` works with. -/
def Opts.mainArgs (o : Opts) : MainArgs :=
  { o.main with args := { o.main.args with
      threads := o.threads.toNat, multiply := o.multiply.map fun p => (p.1.toNat, p.2.toNat) } }

section
variable {H : Type} [DecidableEq H] (hash : Str → H)

/-- What is shown of a run of `Main`, in order (`PatternSolver.py` 626-631, `main.py` 93, 118-129). -/
def console (o : Opts) (input : Str) (out : MainOut H) : List (Shown H) :=
  let info := (logLevel o).showsInfo
  (match out.report with
    | some r => (if o.quietNodes then [.uniques r.uniques] else []) ++
        (if !(o.quiet || o.quietNodes) && info then [.report r out.task] else [])
    | none => []) ++
  (if out.exited then [.refused] else []) ++
  (match out.solutionFile with
    | some _ => if info then [.written (solutionName input o.main.args.mode)] else []
    | none => []) ++
  (match out.verified with
    | some b => if info then [.verified b] else []
    | none => []) ++
  (match out.error with
    | some e => [.error e]
    | none => [])

/-- `main.py` 132-257, the whole program; `none`: it never ends.  An exception inside `Main` is logged there and
`sys.exit(0)` is the only other way to end, so that the status is 0. -/
def program (o : Opts) (env : EnvChoice) (g : Gdb H) : Option (Outcome H) :=
  match refusal o with
  | some n => some { status := n, shown := [.usage] }
  | none =>
    let (ty, text, name) := chooseInput o
    match mainRun hash o.mainArgs env g ty text with
    | none => none
    | some out => some {
        status := 0, shown := console o name out,
        file := out.solutionFile.map fun c => (solutionName name o.main.args.mode, c) }

end
end NDP
