import Verif.Cnfgen.Argparse
/-
  C102: the text tools of cnfgen (`cnfshuffle`, `dimacstransform`, `kthlist2pebbling`) from the words of their command lines.  Of `argparse` the parts in `Argparse.lean` are used; as
  there, command lines with the word `--` are not covered.
-/
namespace NDP.Cnfgen
open NDP

/-- The options of the three tools: `cnfshuffle.py` 43-75, `dimacstransform.py` 30-51, `kthlist2pebbling.py` 37-57, and `-h`. -/
inductive ToolOpt where
  | help | output | seed | input | noFlips | noVars | noClauses | quiet
  deriving DecidableEq, Repr

/-- `cnfshuffle.py` 43-75. -/
def shuffleToolOptions : List (Str × ToolOpt) :=
  [("-h".toList, .help), ("--help".toList, .help), ("--output".toList, .output), ("-o".toList, .output), ("--seed".toList, .seed), ("-S".toList, .seed),
   ("--input".toList, .input), ("-i".toList, .input), ("--no-polarity-flips".toList, .noFlips), ("-p".toList, .noFlips), ("--no-variables-permutation".toList, .noVars),
   ("-v".toList, .noVars), ("--no-clauses-permutation".toList, .noClauses), ("-c".toList, .noClauses), ("--quiet".toList, .quiet), ("-q".toList, .quiet)]

/-- `dimacstransform.py` 30-51, `kthlist2pebbling.py` 37-57. -/
def textToolOptions : List (Str × ToolOpt) :=
  [("-h".toList, .help), ("--help".toList, .help), ("--input".toList, .input), ("-i".toList, .input), ("--output".toList, .output), ("-o".toList, .output),
   ("--quiet".toList, .quiet), ("-q".toList, .quiet)]

/-- `action="store"`, which takes a word; the others are flags. -/
def ToolOpt.takes : ToolOpt → Bool
  | .output | .seed | .input => true
  | _ => false

/-- The values given for an option, in order. -/
def toolValues (o : ToolOpt) (es : List (ToolOpt × Str)) : List Str := (es.filter fun e => decide (e.1 = o)).map (·.2)

/-- The option is there. -/
def toolGiven (o : ToolOpt) (es : List (ToolOpt × Str)) : Bool := es.any fun e => decide (e.1 = o)

/-- The conversions while the options are worked through, and `-h`: every name given with `-i` is opened by `FileType('r',0)`, which fails unless it is `-`; every name given with `-o`
is opened for writing.  `none`: a message or the help text, and an exit.  The last name for `-o` counts. -/
def toolFiles (env : CmdEnv) (es : List (ToolOpt × Str)) : Option Sink :=
  if toolGiven .help es then none
  else if (toolValues .input es).any fun v => decide (v ≠ "-".toList) then none
  else if (toolValues .output es).any fun v => decide (v ≠ "-".toList) && !env.canOpen v then none
  else some (if (toolValues .output es).getLast?.getD "-".toList = "-".toList then env.dash else .binary)

/-- `cnfshuffle.py` 82-83: the seed, if it is not empty. -/
def toolSeed (es : List (ToolOpt × Str)) : Option Str := (toolValues .seed es).getLast?.bind fun s => if s = [] then none else some s

/-- `cnfshuffle.py` 40-95 with the text on the standard input.  There are no positional arguments: a word that is none of the options or values is an error. -/
def cnfshuffleMain (env : CmdEnv) (stdin : Str) (ws : List Str) : M (Option Str) :=
  match parseMain shuffleToolOptions ToolOpt.takes ws with
  | none => pure none
  | some (es, rest) =>
    if rest ≠ [] then pure none else
    match toolFiles env es with
    | none => pure none
    | some k => cnfshuffle (!toolGiven .quiet es) (.stdin stdin) k (toolGiven .noFlips es) (toolGiven .noVars es) (toolGiven .noClauses es)
        (env.vs (toolSeed es)) (env.cs (toolSeed es)) (env.signs (toolSeed es))

/-- The command lines of `dimacstransform.py` (30-65, 87) and `kthlist2pebbling.py` (37-72, 96): the options, and the words of the transformation.  The sub-parsers are those of `cnfgen.py`
150-167, whose own option `-h` plays no part, since the words begin with an argument; there is no seed.  `none` as transformation: none is named. -/
def textToolLine (env : CmdEnv) (ws : List Str) : Option (Bool × Sink × Option Trans) :=
  match parseMain textToolOptions ToolOpt.takes ws with
  | none => none
  | some (es, rest) =>
    match toolFiles env es with
    | none => none
    | some k => (readTrans env none rest).map fun T => (!toolGiven .quiet es, k, T)

/-- `dimacstransform.py` 83-90. -/
def dimacstransformMain (env : CmdEnv) (stdin : Str) (ws : List Str) : M (Option Str) :=
  match textToolLine env ws with
  | none => pure none
  | some (verbose, k, T) => dimacstransform verbose (.stdin stdin) k T

/-- `kthlist2pebbling.py` 91-103. -/
def kthlist2pebblingMain (dflt : Str) (env : CmdEnv) (stdin : Str) (ws : List Str) : M (Option Str) :=
  match textToolLine env ws with
  | none => pure none
  | some (verbose, k, T) => kthlist2pebbling dflt verbose (.stdin stdin) k T

end NDP.Cnfgen
