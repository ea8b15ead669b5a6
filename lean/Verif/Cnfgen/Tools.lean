import Verif.Cnfgen.Shuffle
import Verif.Cnfgen.DimacsProps
import Verif.Cnfgen.DimacsReader
import Verif.Cnfgen.GraphKth
import Verif.Cnfgen.Pebbling
/-
  Model of the command line tools of cnfgen: `cnfgen.py`, `utils/dimacstransform.py`, `utils/cnfshuffle.py`,
  `utils/kthlist2pebbling.py`.  `argparse` is not modelled: the options are given parsed.
  Paths below are relative to `software/cnfgen/cnfformula`.
-/
namespace NDP.Cnfgen
open NDP

/-! ### Model -/

/-- The transformations of the command line (`transformations/substitutions.py` 528-706, `transformations/shuffle.py` 88-106) with their
arguments.  For `shuffle`, the options and the random draws (an order of `n` variables, new places of `m` clauses, `n` signs). -/
inductive Trans where
  | none | flip | ite
  | or (n : Int) | xor (n : Int) | eq (n : Int) | neq (n : Int) | maj (n : Int) | one (n : Int) | lift (n : Int)
  | comp (xor : Bool) (B : BiGraph)
  | shuffle (noFlips noVars noClauses : Bool) (vs cs : Nat → List Nat) (signs : Nat → List Int)

section
variable {V : Type} [DecidableEq V] (sh : V → Str)

/-- The header line put in front (`substitutions.py` 129, 163, 206, 244, 278, 307, 337, 390, 434, 494, `shuffle.py` 40). -/
def Trans.title : Trans → Str
  | .none => []
  | .flip => "Polarity variables has been flipped\n\n".toList
  | .ite => "If-Then-Else substituted formula\n\n".toList
  | .or n => "OR ".toList ++ intStr n ++ " substituted formula\n\n".toList
  | .xor n => "XOR ".toList ++ intStr n ++ " substituted formula\n\n".toList
  | .eq n => "EQ ".toList ++ intStr n ++ " substituted formula\n\n".toList
  | .neq n => "NEQ ".toList ++ intStr n ++ " substituted formula\n\n".toList
  | .maj n => "Majority ".toList ++ intStr n ++ " substituted formula\n\n".toList
  | .one n => "Formula transformed by \"exactly one\" substitution over ".toList ++ intStr n ++ " values\n\n".toList
  | .lift n => "Formula with lifting with selectors over ".toList ++ intStr n ++ " values\n\n".toList
  | .comp x B => "Variable ".toList ++ (if x then "xor".toList else "maj".toList) ++ "-compression from ".toList ++ natStr B.right.length ++
      " to ".toList ++ natStr B.left.length ++ " variables\n\n".toList
  | .shuffle .. => "Reshuffling of:\n\n".toList

/-- `Shuffle` as called by `shuffle.py` 101-106 and `utils/cnfshuffle.py` 86-90: an option switches off the random choice. -/
def shuffleArgs (noFlips noVars noClauses : Bool) (vs cs : Nat → List Nat) (signs : Nat → List Int) (F : CNF V) : M (CNF V) :=
  let n := F.vars.length
  let m := F.clauses.length
  shuffle F (if noVars then F.vars else (vs n).filterMap (F.vars[·]?)) (if noClauses then List.range m else cs m)
    (if noFlips then List.replicate n 1 else signs n)

/-- `transform_cnf` of the command.  The new variables are those of the old formula or strings.  Negative ranks are like 0 (`range`
is empty).  `none`: `exit(-1)` with a message (`substitutions.py` 681-685, 701-705). -/
def Trans.run (F : CNF V) : Trans → M (Option (CNF V ⊕ CNF Str))
  | .none => pure (some (.inl F))
  | .flip => do pure (some (.inl (← flipSubst F)))
  | .ite => do pure (some (.inr (← iteSubst sh F)))
  | .or n => do pure (some (.inr (← orSubst sh F n.toNat)))
  | .xor n => do pure (some (.inr (← xorSubst sh F n.toNat)))
  | .eq n => do pure (some (.inr (← eqSubst sh F n.toNat)))
  | .neq n => do pure (some (.inr (← neqSubst sh F n.toNat)))
  | .maj n => do pure (some (.inr (← majSubst sh F n.toNat)))
  | .one n => do pure (some (.inr (← oneSubst sh F n.toNat)))
  | .lift n => do pure (some (.inr (← liftSubst sh F n.toNat)))
  | .comp x B => if B.right.length ≠ F.vars.length then pure Option.none else do pure (some (.inr (← compSubst F B x)))
  | .shuffle p v c vs cs signs => do pure (some (.inl (← shuffleArgs p v c vs cs signs F)))

/-- A formula with its header. -/
structure Doc (V : Type) where
  header : Str
  cnf : CNF V ⊕ CNF Str

/-- `args.transformation.transform_cnf(F,args)`.  In Python 3 a command line without the name of a transformation is parsed, and `args`
then has no attribute `transformation` (`none`). -/
def Doc.apply (D : Doc V) : Option Trans → M (Option (Doc V))
  | Option.none => raise .attributeError
  | some T => match D.cnf with
  | .inl F => do pure ((← T.run sh F).map fun G => ⟨T.title ++ D.header, G⟩)
  | .inr F => do pure ((← T.run id F).map fun G => ⟨T.title ++ D.header, .inr (G.elim id id)⟩)

/-- `cnfgen.py` 225-226: the transformations one after the other. -/
def Doc.applyAll : List (Option Trans) → Doc V → M (Option (Doc V))
  | [], D => pure (some D)
  | T :: Ts, D => do
    match ← D.apply sh T with
    | Option.none => pure Option.none
    | some D' => Doc.applyAll Ts D'

omit sh in
/-- `F.dimacs(export_header=verbose, extra_text=extra)`. -/
def Doc.dimacs (verbose : Bool) (extra : Option Str) (D : Doc V) : M Str :=
  let hdr := if verbose then some (D.header, extra) else Option.none
  match D.cnf with
  | .inl F => dimacsText hdr F
  | .inr F => dimacsText hdr F
end

/-- Where the text goes.  `FileType('wb',0)` opens a file in binary mode; for `-` it is `sys.stdout`, or, in newer Pythons, the binary
`sys.stdout.buffer`. -/
inductive Sink where
  | text | binary
  deriving DecidableEq

/-- `output.write(s)`: a binary file refuses a `str`. -/
def Sink.write : Sink → Str → M (Option Str)
  | .text, s => pure (some s)
  | .binary, _ => raise .typeError

/-- `print(s, file=output)`. -/
def Sink.print (k : Sink) (s : Str) : M (Option Str) := k.write (s ++ ['\n'])

/-- `FileType('r',0)`: `-` is the standard input; a file cannot be opened (`can't have unbuffered text I/O`), which `argparse` reports. -/
inductive Input where
  | stdin (text : Str) | file (text : Str)

/-- The text to read; `none`: the message of `argparse` and `exit(2)`. -/
def Input.open : Input → Option Str
  | .stdin t => some t
  | .file _ => Option.none

/-- `utils/dimacstransform.py` 79-87.  In all tools, `none` stands for an error message and an exit, `raise` for a traceback. -/
def dimacstransform (verbose : Bool) (inp : Input) (k : Sink) (T : Option Trans) : M (Option Str) :=
  match inp.open with
  | Option.none => pure Option.none
  | some text => do
    let (h, F) ← dimacs2cnf text
    match ← Doc.apply natStr ⟨h, .inl F⟩ T with
    | Option.none => pure Option.none
    | some D => do k.print (← D.dimacs verbose Option.none)

/-- `utils/cnfshuffle.py` 78-96.  The clauses are written without a newline at the end.  Simplified: the pieces are written at once. -/
def cnfshuffle (verbose : Bool) (inp : Input) (k : Sink) (noFlips noVars noClauses : Bool) (vs cs : Nat → List Nat) (signs : Nat → List Int) :
    M (Option Str) :=
  match inp.open with
  | Option.none => pure Option.none
  | some text => do
    let (h, F) ← dimacs2cnf text
    let G ← shuffleArgs noFlips noVars noClauses vs cs signs F
    k.write (← dimacsText (if verbose then some ("Reshuffling of:\n\n".toList ++ h, Option.none) else Option.none) G)

/-- `utils/kthlist2pebbling.py` 92-106 with `families/pebbling.py` 54-57 (the header) and `cnf.py` 30 (`dflt`, the standard header).
`enumerate_vertices` gives the vertices in increasing order, as the reader says (`graphs.py` 433-446, 546).  The name of the graph is the
text of its comments. -/
def kthlist2pebbling (dflt : Str) (verbose : Bool) (inp : Input) (k : Sink) (T : Option Trans) : M (Option Str) :=
  match inp.open with
  | Option.none => pure Option.none
  | some text => do
    let G ← readKth .dag text
    let F ← pebbling (⟨G.nodes, G.edges⟩ : Digraph Int)
    match ← Doc.apply intStr ⟨"Pebbling formula of: ".toList ++ G.name ++ "\n\n".toList ++ dflt, .inl F⟩ T with
    | Option.none => pure Option.none
    | some D => do k.print (← D.dimacs verbose Option.none)

/-- `cnfgen.py` 187-196 (`splitlist`). -/
def splitlist {A : Type} [DecidableEq A] (L : List A) (key : A) : List (List A) :=
  let r := L.foldl (fun (p : List (List A) × List A) e => if e = key then (p.1 ++ [p.2], []) else (p.1, p.2 ++ [e])) ([], [])
  r.1 ++ [r.2]

/-- The parsed options of `cnfgen` and the formula generator chosen by them. -/
structure GenArgs (V : Type) where
  verbose : Bool
  sink : Sink
  build : M (Str × CNF V)

/-- The result, unless it is a `ValueError` or an `AttributeError`: these are reported (`none`). -/
def reported {α : Type} (m : M α) : M (Option α) :=
  match m.run with
  | Option.none => diverge
  | some (.error e) => if e = .valueError ∨ e = .attributeError then pure Option.none else raise e
  | some (.ok a) => pure (some a)

/-- `cnfgen.py` 198-265 for the output format `dimacs`.  `parse` and `parseT` are `parser.parse_args` and `t_parser.parse_args` (`none`: a
message and an exit). -/
def cnfgen {V : Type} [DecidableEq V] (sh : V → Str) (parse : List Str → Option (GenArgs V)) (parseT : List Str → Option (Option Trans)) (argv : List Str) :
    M (Option Str) :=
  let chunks := splitlist argv "-T".toList
  match parse ((chunks.headD []).drop 1), mapOpt parseT chunks.tail with
  | some args, some ts => do
    match ← reported args.build with
    | Option.none => pure Option.none
    | some (h, F) =>
      match ← Doc.applyAll sh ts ⟨h, .inl F⟩ with
      | Option.none => pure Option.none
      | some D => do
        args.sink.print (← D.dimacs args.verbose (some ("COMMAND LINE: cnfgen ".toList ++ joinWith [' '] (argv.drop 1) ++ ['\n'])))
  | _, _ => pure Option.none

end NDP.Cnfgen
