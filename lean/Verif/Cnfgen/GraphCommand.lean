import Verif.Cnfgen.CommandLine
import Verif.Cnfgen.CmdOptions
import Verif.Cnfgen.GraphFile
/-
  C97: the command lines of the families over simple graphs.  Model of the parsers these families set up (`cmdline.py` 337-433, `families/*.py`) and of how the graph is
  taken from the parsed options (`cmdline.py` 434-507).  As in `Argparse.lean`, command lines with the word `--` are not covered.
-/
namespace NDP.Cnfgen
open NDP

/-! ### Model: options with values -/

/-- `nargs`: a flag, one value, two values, three values, one or more values (`'+'`), any number of values (`'*'`). -/
inductive Arity where
  | zero | one | two | three | many | any
  deriving DecidableEq

/-- The values of an option (`match_argument`): the value in the same word, if there is one, or the next words that are not options; the rest of these words. -/
def giveValues : Arity → Option Str → List Str → Option (List Str × List Str)
  | .zero, none, l => some ([], l)
  | .one, some v, l => some ([v], l)
  | .one, none, a :: l => some ([a], l)
  | .two, none, a :: b :: l => some ([a, b], l)
  | .three, none, a :: b :: c :: l => some ([a, b, c], l)
  | .many, some v, l => some ([v], l)
  | .many, none, a :: l => some (a :: l, [])
  | .any, some v, l => some ([v], l)
  | .any, none, l => some (l, [])
  | _, _, _ => none

/-- `_parse_known_args` of a sub-command with positional arguments of one word each: the arguments before the first option, the arguments after it, and the options with their values
in their order.  Any error is `none`; unknown words are an error. -/
def optWords {α : Type} (os : List (Str × α)) (arity : α → Arity) : List Str → Option (List Str × List Str × List (α × List Str))
  | [] => some ([], [], [])
  | w :: ws =>
    match optWords os arity ws with
    | none => none
    | some (lead, later, occ) =>
      match classify os w with
      | .arg => some (w :: lead, later, occ)
      | .opt a long v =>
        match optExpand os (fun o => decide (arity o ≠ .zero)) long a v with
        | none => none
        | some es =>
          match es.getLast? with
          | none => none
          | some (b, v) =>
            match giveValues (arity b) v lead with
            | none => none
            | some (vs, lead') => some ([], lead' ++ later, es.dropLast.map (fun e => (e.1, [])) ++ (b, vs) :: occ)
      | _ => none

/-- The values of an option, and the last ones, which count. -/
def valuesOf {α : Type} [DecidableEq α] (occ : List (α × List Str)) (o : α) : List (List Str) := (occ.filter fun e => decide (e.1 = o)).map (·.2)
def lastValue {α : Type} [DecidableEq α] (occ : List (α × List Str)) (o : α) : Option (List Str) := (valuesOf occ o).getLast?

/-! ### Model: the parsers of the families over simple graphs -/

/-- `cmdline.py` 376-433. -/
inductive GKind where
  | input | gnp | gnm | gnd | grid | torus | complete | empty | plantclique | addedges | savegraph | format
  deriving DecidableEq

/-- The options of these families; `second`: those of the second graph of `giso` and `subgraph`. -/
inductive SOpt where
  | flag (f : Flag) | alternative | charge | graph (second : Bool) (k : GKind)
  deriving DecidableEq

/-- The flags among the options. -/
def SOpt.flagOf : SOpt × List Str → Option Flag
  | (.flag f, _) => some f
  | _ => none

/-- `cmdline.py` 376-433 (`nargs`); `tseitin.py` 70-77; `dominatingset.py` 127; `ordering.py` 206-213. -/
def SOpt.arity : SOpt → Arity
  | .flag _ | .alternative => .zero
  | .charge => .one
  | .graph _ .gnp | .graph _ .gnm | .graph _ .gnd => .two
  | .graph _ .grid | .graph _ .torus => .many
  | .graph _ _ => .one

/-- `cmdline.py` 376-433 (`SimpleGraphHelper.setup_command_line`). -/
def graphOptions (second : Bool) (suffix : Str) : List (Str × SOpt) :=
  [("--input".toList ++ suffix, .graph second .input), ("-i".toList ++ suffix, .graph second .input), ("--gnp".toList ++ suffix, .graph second .gnp),
   ("--gnm".toList ++ suffix, .graph second .gnm), ("--gnd".toList ++ suffix, .graph second .gnd), ("--grid".toList ++ suffix, .graph second .grid),
   ("--torus".toList ++ suffix, .graph second .torus), ("--complete".toList ++ suffix, .graph second .complete), ("--empty".toList ++ suffix, .graph second .empty),
   ("--plantclique".toList ++ suffix, .graph second .plantclique), ("--addedges".toList ++ suffix, .graph second .addedges),
   ("--savegraph".toList ++ suffix, .graph second .savegraph), ("-sg".toList ++ suffix, .graph second .savegraph),
   ("--graphformat".toList ++ suffix, .graph second .format), ("-gf".toList ++ suffix, .graph second .format)]

/-- The families over simple graphs. -/
inductive SFam where
  | gop | matching | tseitin | kcolor | ec | domset | giso | gauto | subgraph | kclique | kcliquebin | ramlb
  deriving DecidableEq

def SFam.all : List SFam := [.gop, .matching, .tseitin, .kcolor, .ec, .domset, .giso, .gauto, .subgraph, .kclique, .kcliquebin, .ramlb]

/-- `ordering.py` 196; `counting.py` 121; `tseitin.py` 60; `coloring.py` 148, 176; `dominatingset.py` 116; `graphisomorphism.py` 115, 144; `subgraph.py` 258, 287, 315, 346. -/
def SFam.name : SFam → Str
  | .gop => "gop".toList
  | .matching => "matching".toList
  | .tseitin => "tseitin".toList
  | .kcolor => "kcolor".toList
  | .ec => "ec".toList
  | .domset => "domset".toList
  | .giso => "giso".toList
  | .gauto => "gauto".toList
  | .subgraph => "subgraph".toList
  | .kclique => "kclique".toList
  | .kcliquebin => "kcliquebin".toList
  | .ramlb => "ramlb".toList

/-- `-h`. -/
def helpS : List (Str × SOpt) := [("-h".toList, .flag .help), ("--help".toList, .flag .help)]

/-- `ordering.py` 206-214; `counting.py` 131; `tseitin.py` 70-78; `coloring.py` 159, 181; `dominatingset.py` 127-128; `graphisomorphism.py` 125, 154-155; `subgraph.py` 269, 298, 329, 356-357. -/
def SFam.options : SFam → List (Str × SOpt)
  | .gop => helpS ++ [("--total".toList, .flag .total), ("-t".toList, .flag .total), ("--smart".toList, .flag .smart), ("-s".toList, .flag .smart),
      ("--knuth2".toList, .flag .knuth2), ("--knuth3".toList, .flag .knuth3), ("--plant".toList, .flag .plant), ("-p".toList, .flag .plant)] ++ graphOptions false []
  | .tseitin => helpS ++ [("--charge".toList, .charge)] ++ graphOptions false []
  | .domset => helpS ++ [("--alternative".toList, .alternative), ("-a".toList, .alternative)] ++ graphOptions false []
  | .giso => helpS ++ graphOptions false "1".toList ++ graphOptions true "2".toList
  | .subgraph => helpS ++ graphOptions false [] ++ graphOptions true "T".toList
  | _ => helpS ++ graphOptions false []

/-- The number of positional arguments: `coloring.py` 158; `dominatingset.py` 126; `subgraph.py` 268, 297, 325-328. -/
def SFam.count : SFam → Nat
  | .kcolor | .domset | .kclique | .kcliquebin => 1
  | .ramlb => 2
  | _ => 0

/-- Two graphs, each of which has to be given: `graphisomorphism.py` 154-155, `subgraph.py` 356-357. -/
def SFam.two : SFam → Bool
  | .giso | .subgraph => true
  | _ => false

/-- The random choices for one graph: the graph networkx returns, and those of `GraphArgs`. -/
structure Choices where
  graph : Nx Int
  clique : List Int
  ord : List Int
  pos : List Nat
  draw : Nat → Int × Int

/-- What these families depend on: `float`, whether the format `dot` is there, the standard input, the random choices for a seed and the words of a sub-command, the logarithm for
`kcliquebin`; and `rest`, the sub-commands that are not modelled: other families, `--grid`, `--torus`, `--savegraph`, other formats than `kthlist`. -/
structure GraphEnv where
  flt : Str → Option PyFloat
  dot : Bool
  stdin : Str
  choices : Option Str → SFam → List Str → Bool → Choices
  coins : Option Str → List Str → Nat → Bool
  bits : GraphArgs → Nat
  rest : Option Str → Str → List Str → Option ICmd

/-- `tseitin.py` 71. -/
def chargeOf (s : Str) : Option Charge :=
  if s = "first".toList then some .first else if s = "random".toList then some .random
  else if s = "randomodd".toList then some .randomodd else if s = "randomeven".toList then some .randomeven else none

/-- The value is accepted by the option's type, choices or action.  `--input` with a file name is refused by Python 3: `FileType('r',0)` asks for unbuffered text.  A bad value of `--gnp`
ends in a traceback instead of a message (C91), which is not distinguished here. -/
def SOpt.accepts (env : GraphEnv) : SOpt → List Str → Bool
  | .charge, [c] => (chargeOf c).isSome
  | .graph _ .input, [f] => decide (f = "-".toList)
  | .graph _ .gnp, [n, p] => (match optGnp env.flt n p with | .ok _ => true | _ => false)
  | .graph _ .gnm, [n, m] => (pos2 n m).isSome
  | .graph _ .gnd, [n, d] => (pos2 n d).isSome
  | .graph _ .grid, ds => (mapOpt positiveInt ds).isSome
  | .graph _ .torus, ds => (mapOpt positiveInt ds).isSome
  | .graph _ .format, [f] => decide (f ∈ formats env.dot .simple)
  | .graph _ .savegraph, _ => true
  | .graph _ _, [k] => (positiveInt k).isSome
  | .flag _, [] => true
  | .alternative, [] => true
  | _, _ => false

/-- The group of `cmdline.py` 374: the ways to give the graph. -/
def sourceKinds : List GKind := [.input, .gnp, .gnm, .gnd, .grid, .torus, .complete, .empty]

def givenKinds (occ : List (SOpt × List Str)) (second : Bool) : List GKind := sourceKinds.filter fun k => decide (valuesOf occ (.graph second k) ≠ [])

/-- Options whose effect is not modelled. -/
def SOpt.elsewhere : SOpt × List Str → Bool
  | (.graph _ .grid, _) | (.graph _ .torus, _) | (.graph _ .savegraph, _) => true
  | (.graph _ .format, v) => decide (v ≠ ["kthlist".toList])
  | _ => false

/-- `cmdline.py` 441-488.  Without a format there is nothing to detect it from on the standard input: a message (`graphs.py` 177-186). -/
def slotSource (env : GraphEnv) (ch : Choices) (text : Str) (occ : List (SOpt × List Str)) (second : Bool) : Option GraphSource :=
  match lastValue occ (.graph second .gnd) with
  | some [n, d] => (pos2 n d).map fun p => .gnd p.1 p.2 ch.graph
  | _ =>
    match lastValue occ (.graph second .gnp) with
    | some [n, p] => (match optGnp env.flt n p with | .ok q => some (.gnp q.1 ch.graph) | _ => none)
    | _ =>
      match lastValue occ (.graph second .gnm) with
      | some [n, m] => (pos2 n m).map fun p => .gnm p.1 p.2 ch.graph
      | _ =>
        match lastValue occ (.graph second .complete) with
        | some [n] => (positiveInt n).map .complete
        | _ =>
          match lastValue occ (.graph second .empty) with
          | some [n] => (positiveInt n).map .empty
          | _ =>
            match lastValue occ (.graph second .format) with
            | some _ => some (.kthlist text)
            | none => none

/-- A number that may be given. -/
def lastNumber (occ : List (SOpt × List Str)) (o : SOpt) : Option Nat := (lastValue occ o).bind fun v => v.head?.bind positiveInt

/-- `cmdline.py` 434-507: the graph from the options. -/
def slotArgs (env : GraphEnv) (ch : Choices) (text : Str) (occ : List (SOpt × List Str)) (second : Bool) : Option GraphArgs :=
  (slotSource env ch text occ second).map fun s =>
    { source := s, plantclique := lastNumber occ (.graph second .plantclique), clique := ch.clique, addedges := lastNumber occ (.graph second .addedges),
      ord := ch.ord, pos := ch.pos, draw := ch.draw }

/-- Is the graph read from the standard input? -/
def readsInput : GraphSource → Bool
  | .kthlist _ => true
  | _ => false

/-- The `build_cnf` functions (see `Cmd.cnf`) on the parsed options. -/
def SFam.build (env : GraphEnv) (seed : Option Str) (ws : List Str) (occ : List (SOpt × List Str)) (a : GraphArgs) : SFam → List Int → Option ICmd
  | .gop, [] =>
    let fs := occ.filterMap SOpt.flagOf
    some (.other (.gop a (decide (Flag.total ∈ fs)) (decide (Flag.smart ∈ fs)) (decide (Flag.plant ∈ fs)) (if Flag.knuth2 ∈ fs then 2 else if Flag.knuth3 ∈ fs then 3 else 0)))
  | .matching, [] => some (.other (.matching a))
  | .tseitin, [] => some (.other (.tseitin (((lastValue occ .charge).bind fun v => v.head?.bind chargeOf).getD .first) (env.coins seed ws) a))
  | .kcolor, [k] => some (.kcolor k a)
  | .ec, [] => some (.other (.ec a))
  | .domset, [d] => some (.domset (decide (valuesOf occ .alternative ≠ [])) d a)
  | .gauto, [] => some (.other (.gauto a))
  | .kclique, [k] => some (.kclique k a)
  | .kcliquebin, [k] => some (.kcliquebin k (env.bits a) a)
  | .ramlb, [k, s] => some (.ramlb k s a)
  | _, _ => none

/-- The `build_cnf` functions with two graphs; what the first has read from the standard input is gone for the second. -/
def SFam.buildTwo (a b : GraphArgs) : SFam → List Int → Option ICmd
  | .giso, [] => some (.other (.giso a b))
  | .subgraph, [] => some (.other (.subgraph a b))
  | _, _ => none

/-- The sub-commands over simple graphs (`none`: a message, the help text or a traceback, and no formula). -/
def graphCommand (env : GraphEnv) (seed : Option Str) (name : Str) (ws : List Str) : Option ICmd :=
  match SFam.all.find? fun f => decide (f.name = name) with
  | none => env.rest seed name ws
  | some f =>
    match optWords f.options SOpt.arity ws with
    | none => none
    | some (lead, later, occ) =>
      let fs := occ.filterMap SOpt.flagOf
      if Flag.help ∈ fs ∨ exclusive fs = false then none else
      if occ.any fun o => !o.1.accepts env o.2 then none else
      if 1 < (givenKinds occ false).length ∨ 1 < (givenKinds occ true).length then none else
      if f.two = true ∧ (givenKinds occ false = [] ∨ givenKinds occ true = []) then none else
      match mapOpt parseInt (lead ++ later) with
      | none => none
      | some ns =>
        if ns.length ≠ f.count then none else
        if occ.any SOpt.elsewhere then env.rest seed name ws else
        match slotArgs env (env.choices seed f ws false) env.stdin occ false with
        | none => none
        | some a =>
          if f.two then
            match slotArgs env (env.choices seed f ws true) (if readsInput a.source then [] else env.stdin) occ true with
            | none => none
            | some b => f.buildTwo a b ns
          else f.build env seed ws occ a ns

end NDP.Cnfgen
