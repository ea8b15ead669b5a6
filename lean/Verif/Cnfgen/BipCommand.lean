import Verif.Cnfgen.GraphLine
import Verif.Cnfgen.CommandsBip
/-
  C98: the command lines of the families over bipartite graphs and directed acyclic graphs.  Model of the parsers these families set up (`cmdline.py` 241-325, 516-735,
  `families/pigeonhole.py`, `families/subsetcardinality.py`, `families/pebbling.py`) and of how the graphs are taken from the parsed options (`cmdline.py` 284-325, 643-735).
  As in `Argparse.lean`, command lines with the word `--` are not covered.
-/
namespace NDP.Cnfgen
open NDP

/-- `cmdline.py` 608-665. -/
inductive BKind where
  | input | bp | bm | bd | bregular | bshift | bcomplete | plantbiclique | addedges | savegraph | format
  deriving DecidableEq

/-- `cmdline.py` 266-298. -/
inductive DKind where
  | input | tree | pyramid | savegraph | format
  deriving DecidableEq

inductive BOpt where
  | flag (f : Flag) | equal | bip (k : BKind) | dag (k : DKind)
  deriving DecidableEq

/-- The flags among the options. -/
def BOpt.flagOf : BOpt × List Str → Option Flag
  | (.flag f, _) => some f
  | _ => none

/-- `nargs` (`cmdline.py` 266-298, 608-665; `pigeonhole.py` 243-246; `subsetcardinality.py` 132). -/
def BOpt.arity : BOpt → Arity
  | .flag _ | .equal => .zero
  | .bip .bp | .bip .bm | .bip .bd | .bip .bregular => .three
  | .bip .bshift => .any
  | .bip .bcomplete | .bip .plantbiclique => .two
  | .bip _ => .one
  | .dag _ => .one

/-- `cmdline.py` 608-665 (`BipartiteGraphHelper.setup_command_line`). -/
def bipOptions (suffix : Str) : List (Str × BOpt) :=
  [("--input".toList ++ suffix, .bip .input), ("-i".toList ++ suffix, .bip .input), ("--bp".toList ++ suffix, .bip .bp), ("--bm".toList ++ suffix, .bip .bm),
   ("--bd".toList ++ suffix, .bip .bd), ("--bregular".toList ++ suffix, .bip .bregular), ("--bshift".toList ++ suffix, .bip .bshift),
   ("--bcomplete".toList ++ suffix, .bip .bcomplete), ("--plantbiclique".toList ++ suffix, .bip .plantbiclique), ("--addedges".toList ++ suffix, .bip .addedges),
   ("--savegraph".toList ++ suffix, .bip .savegraph), ("-sg".toList ++ suffix, .bip .savegraph),
   ("--graphformat".toList ++ suffix, .bip .format), ("-gf".toList ++ suffix, .bip .format)]

/-- `cmdline.py` 266-298 (`DirectedAcyclicGraphHelper.setup_command_line`). -/
def dagOptions : List (Str × BOpt) :=
  [("--input".toList, .dag .input), ("-i".toList, .dag .input), ("--tree".toList, .dag .tree), ("--pyramid".toList, .dag .pyramid),
   ("--savegraph".toList, .dag .savegraph), ("-sg".toList, .dag .savegraph), ("--graphformat".toList, .dag .format), ("-gf".toList, .dag .format)]

/-- The families. -/
inductive BFam where
  | gphp | subsetcard | stonesparse | peb | stone
  deriving DecidableEq

def BFam.all : List BFam := [.gphp, .subsetcard, .stonesparse, .peb, .stone]

/-- `pigeonhole.py` 233; `subsetcardinality.py` 126; `pebbling.py` 406, 343, 374. -/
def BFam.name : BFam → Str
  | .gphp => "gphp".toList
  | .subsetcard => "subsetcard".toList
  | .stonesparse => "stonesparse".toList
  | .peb => "peb".toList
  | .stone => "stone".toList

/-- `-h`. -/
def helpB : List (Str × BOpt) := [("-h".toList, .flag .help), ("--help".toList, .flag .help)]

/-- `pigeonhole.py` 243-247; `subsetcardinality.py` 132-134; `pebbling.py` 353, 384, 416-417. -/
def BFam.options : BFam → List (Str × BOpt)
  | .gphp => helpB ++ [("--functional".toList, .flag .functional), ("--onto".toList, .flag .onto)] ++ bipOptions []
  | .subsetcard => helpB ++ [("--equal".toList, .equal), ("-e".toList, .equal)] ++ bipOptions []
  | .stonesparse => helpB ++ dagOptions ++ bipOptions "_mapping".toList
  | .peb => helpB ++ dagOptions
  | .stone => helpB ++ dagOptions

/-- The number of positional arguments: `pebbling.py` 385. -/
def BFam.count : BFam → Nat
  | .stone => 1
  | _ => 0

/-- Is there a bipartite graph, is there a directed graph? -/
def BFam.bip : BFam → Bool
  | .gphp | .subsetcard | .stonesparse => true
  | _ => false

def BFam.dag : BFam → Bool
  | .stonesparse | .peb | .stone => true
  | _ => false

/-- The random choices for a bipartite graph: the graph networkx returns, and those of `BipSource` and `BipArgs`. -/
structure BChoices where
  graph : Nx Int
  smp : Nat → List Nat
  pick : Nat → Nat → Nat → Nat × Nat
  depth : Nat
  left : List Int
  right : List Int
  ord : List Int
  pos : List Nat
  draw : Nat → Int × Int

/-- What these families depend on: `float`, whether the format `dot` is there, the standard input, the random choices for a seed and the words of a sub-command, the header of a formula; and
`rest`, what is not modelled: directed graphs read from a file, `--savegraph`, other formats than `kthlist`. -/
structure BipEnv where
  flt : Str → Option PyFloat
  dot : Bool
  stdin : Str
  choices : Option Str → BFam → List Str → BChoices
  header : BipCmd → CNF Str → Str
  rest : Option Str → Str → List Str → Option (ICmd ⊕ BipCmd)

def Parsed.isOk {α : Type} : Parsed α → Bool
  | .ok _ => true
  | _ => false

def Parsed.get? {α : Type} : Parsed α → Option α
  | .ok a => some a
  | _ => none

/-- The value is accepted by the option's type, choices or action.  `--input` with a file name is refused by Python 3: `FileType('r',0)` asks for unbuffered text.  A bad value that is found
by an action ends in a traceback instead of a message (C91), which is not distinguished here. -/
def BOpt.accepts (env : BipEnv) : BOpt → List Str → Bool
  | .bip .input, [f] => decide (f = "-".toList)
  | .dag .input, [f] => decide (f = "-".toList)
  | .bip .bp, [l, r, p] => (optBp env.flt l r p).isOk
  | .bip .bm, [l, r, m] => (optBm l r m).isOk
  | .bip .bd, [l, r, d] => (optBd l r d).isOk
  | .bip .bregular, [l, r, d] => (optBregular l r d).isOk
  | .bip .bshift, vs => (optBshift vs).isOk
  | .bip .bcomplete, [l, r] => (pos2 l r).isSome
  | .bip .plantbiclique, [l, r] => (pos2 l r).isSome
  | .bip .addedges, [k] => (positiveInt k).isSome
  | .bip .savegraph, [_] => true
  | .bip .format, [f] => decide (f ∈ formats env.dot .bipartite)
  | .dag .tree, [h] => (positiveInt h).isSome
  | .dag .pyramid, [h] => (positiveInt h).isSome
  | .dag .savegraph, [_] => true
  | .dag .format, [f] => decide (f ∈ formats env.dot .dag)
  | .flag _, [] => true
  | .equal, [] => true
  | _, _ => false

/-- The groups of `cmdline.py` 264 and 605: the ways to give the graph. -/
def bipKinds : List BKind := [.input, .bp, .bm, .bd, .bregular, .bshift, .bcomplete]
def dagKinds : List DKind := [.input, .tree, .pyramid]

def givenBip (occ : List (BOpt × List Str)) : List BKind := bipKinds.filter fun k => decide (valuesOf occ (.bip k) ≠ [])
def givenDag (occ : List (BOpt × List Str)) : List DKind := dagKinds.filter fun k => decide (valuesOf occ (.dag k) ≠ [])

/-- Options whose effect is not modelled. -/
def BOpt.elsewhere : BOpt × List Str → Bool
  | (.bip .savegraph, _) | (.dag .savegraph, _) => true
  | (.bip .format, v) | (.dag .format, v) => decide (v ≠ ["kthlist".toList])
  | _ => false

/-- `cmdline.py` 669-716, in the order of the code.  Without a format there is nothing to detect it from on the standard input: a message (`graphs.py` 177-186). -/
def bipSource (env : BipEnv) (ch : BChoices) (occ : List (BOpt × List Str)) : Option BipSource :=
  match lastValue occ (.bip .bp) with
  | some [l, r, p] => (optBp env.flt l r p).get?.map fun x => .bp x.1 x.2.1 ch.graph
  | _ =>
    match lastValue occ (.bip .bm) with
    | some [l, r, m] => (optBm l r m).get?.map fun x => .bm x.1 x.2.1 x.2.2 ch.graph
    | _ =>
      match lastValue occ (.bip .bd) with
      | some [l, r, d] => (optBd l r d).get?.map fun x => .bd x.1 x.2.1 x.2.2 ch.smp
      | _ =>
        match lastValue occ (.bip .bregular) with
        | some [l, r, d] => (optBregular l r d).get?.map fun x => .bregular x.1 x.2.1 x.2.2 ch.pick ch.depth
        | _ =>
          match lastValue occ (.bip .bshift) with
          | some vs => (optBshift vs).get?.map fun x => .bshift x.1 x.2.1 x.2.2
          | _ =>
            match lastValue occ (.bip .bcomplete) with
            | some [l, r] => (pos2 l r).map fun x => .bcomplete x.1 x.2
            | _ =>
              match lastValue occ (.bip .format) with
              | some _ => some (.kthlist env.stdin)
              | none => none

/-- `--plantbiclique`, `--addedges`. -/
def lastPair (occ : List (BOpt × List Str)) : Option (Nat × Nat) :=
  match lastValue occ (.bip .plantbiclique) with
  | some [l, r] => pos2 l r
  | _ => none

def lastAdd (occ : List (BOpt × List Str)) : Option Nat :=
  match lastValue occ (.bip .addedges) with
  | some [k] => positiveInt k
  | _ => none

/-- `cmdline.py` 661-735: the bipartite graph from the options. -/
def bipArgs (env : BipEnv) (ch : BChoices) (occ : List (BOpt × List Str)) : Option BipArgs :=
  (bipSource env ch occ).map fun s =>
    { source := s, plantbiclique := lastPair occ, left := ch.left, right := ch.right, addedges := lastAdd occ, ord := ch.ord, pos := ch.pos, draw := ch.draw }

/-- `cmdline.py` 304-312. -/
def dagSource (occ : List (BOpt × List Str)) : Option DagSource :=
  match lastValue occ (.dag .tree) with
  | some [h] => (positiveInt h).map .tree
  | _ =>
    match lastValue occ (.dag .pyramid) with
    | some [h] => (positiveInt h).map .pyramid
    | _ => none

/-- The `build_cnf` functions (`pigeonhole.py` 250-260, `subsetcardinality.py` 136-139, `pebbling.py` 356-367, 388-399, 419-432) on the parsed options. -/
def BFam.build (env : BipEnv) (ch : BChoices) (occ : List (BOpt × List Str)) : BFam → List Int → Option (ICmd ⊕ BipCmd)
  | .gphp, [] => (bipArgs env ch occ).map fun a =>
      .inr (.gphp (decide (Flag.functional ∈ occ.filterMap BOpt.flagOf)) (decide (Flag.onto ∈ occ.filterMap BOpt.flagOf)) a)
  | .subsetcard, [] => (bipArgs env ch occ).map fun a => .inr (.subsetcard (decide (valuesOf occ .equal ≠ [])) a)
  | .stonesparse, [] => (dagSource occ).bind fun d => (bipArgs env ch occ).map fun a => .inr (.stonesparse d a)
  | .peb, [] => (dagSource occ).map fun d => .inl (.other (.peb d))
  | .stone, [s] => (dagSource occ).map fun d => .inl (.other (.stone s d))
  | _, _ => none

/-- All sub-commands (`none`: a message, the help text or a traceback, and no formula): these families, and those of `Argparse.lean` and `GraphCommand.lean`.  A directed graph on the standard
input in some format is not modelled; without a format there is a message. -/
def bipCommand (cenv : CmdEnv) (env : BipEnv) (seed : Option Str) (name : Str) (ws : List Str) : Option (ICmd ⊕ BipCmd) :=
  match BFam.all.find? fun f => decide (f.name = name) with
  | none => (subCommand cenv seed name ws).map .inl
  | some f =>
    match optWords f.options BOpt.arity ws with
    | none => none
    | some (lead, later, occ) =>
      if Flag.help ∈ occ.filterMap BOpt.flagOf then none else
      if occ.any fun o => !o.1.accepts env o.2 then none else
      if 1 < (givenBip occ).length ∨ 1 < (givenDag occ).length then none else
      match mapOpt parseInt (lead ++ later) with
      | none => none
      | some ns =>
        if ns.length ≠ f.count then none else
        if occ.any BOpt.elsewhere then env.rest seed name ws else
        if f.dag = true ∧ dagSource occ = none ∧ valuesOf occ (.dag .format) ≠ [] then env.rest seed name ws else
        f.build env (env.choices seed f ws) occ ns

/-- `args.generator.build_cnf(args)`: without sub-command there is no `generator`. -/
def lineArgs (cenv : CmdEnv) (env : BipEnv) (l : MainLine (ICmd ⊕ BipCmd)) : GenArgs Str :=
  match l.cmd with
  | none => ⟨l.verbose, l.sink, raise .attributeError⟩
  | some (.inl c) => ⟨l.verbose, l.sink, do let F ← c.cnf false; pure (cenv.header c F, F)⟩
  | some (.inr c) => ⟨l.verbose, l.sink, do let F ← c.cnf; pure (env.header c F, F)⟩

/-- `cnfgen.py` 198-265 with all these families, for the output format `dimacs`. -/
def cnfgenAll (cenv : CmdEnv) (env : BipEnv) (argv : List Str) : M (Option Str) :=
  cnfgen id (fun ws => (readLine cenv (bipCommand cenv env) ws).map (lineArgs cenv env))
    (readTrans cenv (runSeed (((splitlist argv "-T".toList).headD []).drop 1))) argv

end NDP.Cnfgen
