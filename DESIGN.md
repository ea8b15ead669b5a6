# Formal model of GridSAT NDP-blueprint (Lean 4): design

## Trusted base

* **Lean 4.33's kernel** and the three standard axioms `propext`, `Classical.choice`, `Quot.sound`. No axiom is added, no
  compiled evaluation is trusted; concrete cases use `decide` / `decide +kernel` / `rfl`, which the kernel evaluates. The table
  below lists the axioms of every theorem named in `MANIFEST.json`.
* **The transcription.** The code in `/repo` is never run. Each model definition cites the lines it transcribes, and says what
  it simplifies. That the transcription is right is trusted, not proved. `seeded/LOG.jsonl` records how the theorems react
  to wrong transcriptions.
* **Python's semantics** as written in `Verif/Py.lean`: unbounded `int`, `list`, insertion-ordered `dict`, `set`, `str` as a
  list of characters, stable `sort`/`sorted` (any stable sort: the model's is insertion sort), slices, `split`, `strip`,
  `int(...)`, `str(...)`, exceptions, `while`.
* For the Haskell generator: Haskell's lists and `Int`/`Integer` arithmetic as `List` and `Nat`/`Int`.

## Shape of the model

* Code runs in `M = ExceptT PyErr Option`: `none` = never returns, `error e` = a Python exception, `ok x` = returns `x`.
  `while` is `pyWhile`, a least fixpoint (`partial_fixpoint`): nothing terminates by definition, termination is proved (C03,
  C09) and so is non-termination (C39).
* The digest (SHA-1) is a parameter `hash : Str → H` of every definition, so theorems hold for every function. Where a
  property needs it, the hypothesis `NoCollisions` (or `InjOn`) says that no two *different* bodies *met in this search* have
  the same digest; soundness of SAT answers and of solutions (C01, C04) needs no such hypothesis.
* Worker processes run between forking and reporting without interacting (they only share the global DB), so a run of the
  solver takes as an extra argument `env : EnvChoice` saying in which order workers report and which connections fail.
  Theorems quantify over every `env`; `Fair` says that each worker is eventually heard. Workers sharing the global DB are a
  transition system (`Model/Shared.lean`), one step = one turn of the loop of one process, over all interleavings.
* PostgreSQL is modelled by its effect on a table: the runtime table as an insertion-ordered list of rows with the failure
  behaviour of a transaction after a constraint violation, the global table as a finite map.
* Sets of Python are lists without duplicates; where Python iterates over a set, the results are proved not to depend on
  the order or the code only asks for membership or size.

## What is modelled

| code | model |
|---|---|
| `Clause.py` (all) | `Model/Clause.lean` |
| `Set.py` (all but `print`-like helpers) | `Model/SetObj.lean` |
| `DbAdaptor.py` (effect of each query that is called) , `SuperQueue.py` | `Model/Db.lean`, `Model/UniqueQueue.lean` |
| `PatternSolver.py` (solving loop, workers, merging, statistics, `solve_set`, solution file, verification) | `Model/Solver.lean`, `Model/Task.lean`, `Model/Shared.lean` |
| `PatternSolver.py` (`draw_graph`, the `self.graph` statements of `process_set`) | `Model/Draw.lean` |
| `InputReader.py` | `Model/Reader.lean` |
| `Factorizer.py`, `Multiply.py`, decoding of the factors/product, `main.py` (`Main`) | `Model/Task.lean` |
| `tools/factorize.py` | `Model/Factorize.lean` |
| `tools/sabry_cnf_gen.hs` (gates, adders, three multipliers, bit inference, Tseitin clauses, printed text) | `Model/Generator.lean` |
| `software/cnfgen/cnfformula/cnf.py` (`CNF` object, constraint builders, mappings) | `Cnfgen/Base.lean` |
| `software/cnfgen/cnfformula/families/` (pigeonhole, ordering, counting, tseitin, coloring) | `Cnfgen/{Pigeon,Ordering,Counting,Tseitin,Coloring}.lean` |
| `software/cnfgen/cnfformula/families/` (ramsey, cliquecoloring, dominatingset, subsetcardinality, graphisomorphism, pebbling, subgraph) | `Cnfgen/{Ramsey,CliqueColoring,DominatingSet,SubsetCard,Isomorphism,Digraph,Pebbling,Subgraph}.lean` |
| `software/cnfgen/cnfformula/transformations/` (substitutions, shuffle) | `Cnfgen/Transform.lean` |
| `PatternSolver.py`, `DbAdaptor.py` with failing statements and dying processes | `Model/Faults.lean` |
| `software/cnfgen/cnfformula/utils/solver.py` | `Cnfgen/SolverIface.lean` |
| `software/cnfgen/cnfformula/graphs.py` (`readGraph`, `writeGraph`, kthlist, dimacs and matrix formats, bipartite generators, graph modifications) | `Cnfgen/{GraphFile,GraphIO,GraphRead,GraphKth,GraphRound,GraphDimacs,BipGen,BipRegular,AddEdges}.lean` |
| `software/cnfgen/cnfformula/cnfgen.py` (`command_line_utility` after parsing), `utils/{dimacstransform,cnfshuffle,kthlist2pebbling}.py` | `Cnfgen/Tools.lean` |
| `software/cnfgen/cnfformula/utils/__init__.py`, DIMACS output of `cnf.py` | `Cnfgen/Dimacs.lean` |
| LaTeX output of `cnf.py` | `Cnfgen/Latex.lean` |

## What is not modelled

* `argparse` beyond the fragment of `Cnfgen/Argparse.lean` and `Model/MainLine.lean` (C96, C97, C98, C101; Python 3.8 to 3.11), `configs.py` reading of the environment, logging (except which lines about the outcome are shown, C90), progress
  output, elapsed time and memory figures. Of the
  drawing (`-g`): the nodes, edges and labels sent to `graphviz` are modelled; colours and other attributes, the statistics box and the
  rendering are not.
* SQL text, network, the PostgreSQL server beyond the effects above; `delete_gdb.py`, `tools/create_global_table.py`.
* Python's recursion limit, except in C83: the frames left for the recursive statistics function are a parameter there; all other theorems are about an
  unbounded stack (by `C83_enough_frames` the same thing for formulas with at most as many variables as frames).
* `from audioop import mul` in `main.py`, which stops the program from starting on Python 3.13 and later.
* Non-ASCII text: digits and white space are the ASCII ones (Python's `int` and `split` accept more).
* Of `software/cnfgen`: the `gml` and `dot` graph formats (networkx), networkx's own random graphs, the text of the standard header, `kthgen`. Graphs are lists of vertices
  (natural numbers, in the order the code enumerates them) and of edges; `Wf` says what networkx guarantees of a simple graph
  (no repeated vertex or edge, no loop, ends are vertices). Variable names are the strings of the code, and the proofs show
  that different pairs give different names. Documentation strings are not executed.
* The memory model of `multiprocessing` queues beyond "each message sent arrives once".

## Assumptions that appear as hypotheses

`Proper F` (clauses non-empty, no variable twice in one clause, no literal 0: what the readers produce for inputs of at most three
literals per clause, C15/C21/C22), `Local a` (no global DB), `NoCollisions` (above), `Fair` (above), and for the
generator `4 ≤ N`. Each property file contains examples meeting the hypotheses of its theorems with a concrete input.

## Properties: what is proved and how

Specifications are in `Verif/Spec.lean`, `SpecIO.lean`, `SpecGen.lean`, `SpecGdb.lean` and in the "specification" parts of
`Props/*.lean`; none of them mentions the solver's functions.

* **C01, C02, C04, C05, C06, C07, C13** (`Props/Verdict.lean`, `Proofs/{Track,Child,Search,Solve,Threads}`). Invariant of the loop: every queued
  node is the residual of the input under its partial assignment, seen through its name map; every expanded node has both
  children accounted for (leaf, redundant or queued). A satisfying assignment is followed down the graph, by
  induction on the number of literals, to a True leaf. Merging of workers is a permutation-independent fold.
* **C03, C09** (`Proofs/LoTerm`, `Props/Normal.lean`). Normalisation: each round that changes anything decreases the
  clause list in a lexicographic order over a finite set. Search: a child has fewer literals than its parent, and a digest is
  queued once.
* **C10, C11** (`Props/Normal.lean`). Invariants of the renaming loop.
* **C08, C38** (`Props/Queue.lean`). Simulation between the queue in memory, the DB queue and a list. `unique_queue`
  with a DB is broken (proved).
* **C12, C14, C15, C16, C25, C26, C27, C28** (`Props/Basic.lean`, `Props/Node.lean`). Inductions over lists; string codecs are
  proved injective / inverted character by character.
* **C17, C18, C19, C20** (`Props/Graph.lean`). Graph invariant (edges, two per inner node, acyclic by
  literal count, reachable from the root); the recursive statistics equal counts over the reachable subgraph. Excluded: `-thief` together with
  several workers, for C17 (reachability only), C19 and C20.
* **C21, C22, C23, C24** (`Props/Reader.lean`, `ReaderExact.lean`). Parser correctness against `SpecIO`; violations are proved as theorems; for
  every DIMACS text, which are refused and what is read otherwise.
* **C29 – C33, C42** (`Props/{Circuit,FactGen,MultGen}.lean`). The generator's monad is interpreted twice, once
  over Booleans and once over symbolic bits with clauses; circuits are proved to multiply, the clauses to have
  exactly the circuit's behaviours as models, the printed text to be read back as these clauses, the units added
  by the preprocessing to fix the product (or the factors), the solver's solution to decode to true factors (product).
* **C34, C35, C36, C37, C40, C44** (`Props/{Gdb,Shared,ThiefShared}.lean`). Table rows invariant ("the row of a digest is a normalised
  set with that digest, and its children are the exact branches"), histories of runs, kills at every step, interleavings. C44: in addition every
  node met is (up to renaming, with `-th`) in the table or in a queue, and a True leaf of a written row is known to some process; `3 ^ literals` is the
  termination measure.
* **C39, C43** (`Props/Failure.lean`), **C41** (`Props/Factorize.lean`). C39: the collection loop never ends,
  proved via the least-fixpoint semantics of `while`.
* **C45** (`Props/Draw.lean`, `Proofs/Draw*.lean`). The loop with drawing statements is proved to project onto the loop without
  (same result); the drawing invariant says drawn nodes and arrows are those of `nodes_children`. Without workers; workers draw in
  their own process and the drawing is lost (`C45_workers_not_drawn`); what is drawn is still right (`Props/DrawWorkers.lean`).
* **C46** (`Props/Reader.lean`). The file written is the solution formatted, read back to a model of the input.
* **C47** (`Props/GdbCounts.lean`). Rows of the table after a fresh run = exact counts below each node (from C18); a rerun reads them.
* **C28, C31, C42 messages** (`Props/MultGen.lean`). What `-fact`/`-mult` print is true of the numbers given.
* **C48-C54** (`Cnfgen/`, specification `Cnfgen/Spec.lean`). Formulas of the bundled generator: `Coh` says that the stored integer
  clauses are the given clauses under the numbering of the variables; so satisfiability of the integer clauses (`Spec.Satisfiable`, the same
  as for the solver) is that of the named ones. Then each family against its combinatorial meaning (injection, matching, partition,
  connectivity, parity of components, coloring).
* **C55-C58** (`Cnfgen/TransformProps.lean`, `Shuffle.lean`, `DimacsProps.lean`, `WellFormed.lean`). The general substitution is
  shown once to be "replace every literal by its clauses" (`baseSubst_ok`), then each gadget's clauses against its Boolean function.
  DIMACS text is taken apart line by line; the solver's reader theorem (C21) and verdict (C24) then apply. C58 is an invariant over
  histories of calls.
* **C59-C66** (`Cnfgen/{Ramsey,CliqueColoring,DominatingSet,SubsetCard,Isomorphism,Pebbling,Subgraph,SubgraphMany}.lean`). Each family: the
  generator is a function to a formula object; the theorem says that it returns one and that this is satisfiable exactly when the
  combinatorial object exists (stated with plain graphs, sets and maps). C62: half of the edges at each vertex via an Euler-like pairing
  argument. C64: induction along the acyclic graph. C65/C66: from a meaning theorem for increasing or injective placements of
  positions; C66 is false of the code and the exact meaning is proved instead.
- **C67.** For a returned formula `F`: which names are in `F.vars`, and for every assignment `α`, when `Holds F.vars F.clauses α`. From the
  coherence of the clause store (C58) and the per-constraint meanings (C48, C49), generator by generator.
- **C68, C69** (`Cnfgen/Random.lean`). Random choices are arbitrary functions constrained by the contracts of `random.sample`,
  `random.choice` and set iteration; invariant of the sampling loop; the possible clauses are counted. No statement about distributions.
- **C70** (`Cnfgen/DimacsReader.lean`). The loop of the reader: invariant "clauses and buffer are the numbers read so far, cut at the zeros";
  acceptance and refusal for every text.
- **C71–C73** (`Cnfgen/GraphIO.lean`, `GraphRead.lean`, `GraphKth.lean`, `GraphRound.lean`, `GraphDimacs.lean`). networkx graphs as node list, edge
  list, sides; the readers line by line, invariants of their loops against an independent description of the texts (`KthText`, `GdimText`); the
  writers' texts are shown to be such descriptions. Not modelled: dot and gml (library), multigraphs, `\r` and other line breaks, file objects.
- **C74** (`Cnfgen/BipGen.lean`, `BipRegular.lean`). The random draws are an argument (oracle) constrained to the ranges given to `random`; the
  in-place shuffling of `bipartite_random_regular` as a fold with the invariant "used entries are the edges, the rest is still a permutation".
  Nested calls after a dead end are a list of attempts, bounded by a recursion depth.
- **C75** (`Cnfgen/AddEdges.lean`). `sample_missing_edges` and the graph modifications of the command line; draws are arguments; edges counted as
  `Sym2` pairs: available + present = possible. Invariant of the sparse loop; every choice realised by draws.
- **C76** (`Model/Faults.lean`, `Proofs/Faults.lean`, `Props/Faults.lean`). Per pass an arbitrary set of failing statements; failing read = empty
  table, failing INSERT = a pass that finds the row already there; invariants of C44 without completeness; deaths as a step of the system.
- **C77** (`Cnfgen/SolverIface.lean`). The machine (installed programs; answer of a command to an input text) is an argument; `minisat`'s answer file is
  only assumed to be right about the DIMACS text it was given, and C57 links that text to the formula. Bytes and `str` are distinct values.
- **C78** (`Cnfgen/Tools.lean`, `Cnfgen/ToolProps.lean`, `C78_solver` in `Cnfgen/ToolNumbers.lean`). The tools as functions from the parsed options, the input text
  and the random draws to the printed text, an exit with a message, or a traceback. `Prints` is the specification of a printed DIMACS file (solver's layout,
  `dimacsFormula`, the reader). Chains by induction from C55/C56; the newline of `print` handled separately.
- **C79** (`Cnfgen/{Numbering,Renaming,ToolProps}.lean`). `run_same`: the numbered clauses made by any transformation depend only on the numbered
  clauses given, proved from a closed form of the substituted formula (naturality of every clause builder in the names). `splitlist` against
  the specification "joined with the key it gives the list, no piece has the key".
- **C80** (`Cnfgen/ToolProps.lean`). From C56, C64, C71 and C78's lemmas; the refutation runs the tool on a concrete text for all draws.
- **C81** (`Cnfgen/ToolNumbers.lean`). Order of first occurrence of the names in the clauses of each gadget (combinations, pairs, parity), blocks by
  `idxOf_blocks`; then C55 read through the numbers.
- **C82** (`Cnfgen/Clauses{,2,3}.lean`). `Says vs cs Φ`: each constraint of the set `Φ` of predicates on assignments is said exactly by clauses of `cs`, and each
  clause follows from one of them. Proved on the clauses with names (`SaysLits`), part by part (`says_append`, `says_flatMap`, `says_map`, `says_each`), then carried
  to the numbers. Says `Φ` as a set: order and repetition of clauses are not claimed.
- **C83** (`Model/Recursion.lean`, `Proofs/Recursion.lean`, `Props/Recursion.lean`). The traversal with `d` frames. It is the unbounded one or overflows (induction on
  `d`). Upper bound: the number of variables falls along every edge. Lower bound: a traversal that does not overflow has visited only nodes less than `d` edges
  away, each edge saves at most one literal of a smallest satisfying set of literals, and a satisfiable root leads to a node that one literal satisfies.
- **C84** (`Cnfgen/CmdGraph.lean`, `Cnfgen/Commands.lean`, `Cnfgen/Pipeline.lean`). `obtain_graph` and all `build_cnf` functions for simple graphs and numbers; `Cmd.Answers`
  says what each is documented to do: `none` for a refusal, `some P` for a formula satisfiable exactly if `P`. Composition of the theorems on graphs (C70, C75), on
  families (C50–C69) and on the tool (C78). What `networkx` returns for random graphs is a parameter with the library's contract (`NxGraph`).
- **C85** (`Cnfgen/Pipeline.lean`). The clauses of these families have one to three literals and some clause is not a tautology, so C78 on the solver applies to
  the text printed.
- **C86** (`Cnfgen/CmdBip.lean`, `Cnfgen/CommandsBip.lean`). `BipartiteGraphHelper.obtain_graph` with every source as in C84; `BipSource.Describes` gives the sides and
  edges a source stands for, `BipArgs.Gives` the graph after `--plantbiclique` and `--addedges`. Invariant `Bip`: two sorted disjoint sides, labels, edges across.
  Then the three `build_cnf` functions on the graph (C50, C62, C64) and the tool (C78).
  `C86_models`: the printed formula assignment by assignment, which also separates the flags.
- **C87** (`Cnfgen/CommandModels.lean`). `Cmd.Solutions` says, for each sub-command, which names are the variables and which assignments are solutions, in terms of the
  arguments and of the graph the options stand for (`GraphArgs.Gives`). Proved from C84's description of the graphs and C67 for each family, then through the tool
  (`cnfgen_eq`, C78). This is what makes a swapped or ignored flag visible; C84 only says when the formula is satisfiable.
- **C88** (`Cnfgen/{Latex,LatexProps,LatexRead}.lean`). `ShowsLit`, `ShowsRow`, `ShowsClauses` say what the text of a literal, a clause, the whole formula is; `C88_latex` proves that
  `latex` writes it (the loop's page arithmetic by induction on the rows from any row number). `C88_determined` reads the text back: split into lines, keep those that begin
  with `&`, cut prefix and line end; then rows determine literals because names have no blanks. `C88_numbers`, `C88_bar_misses_last`: the two findings.
- **C89** (`Cnfgen/GraphFile.lean`). `HasExt` says what the extension of a file name is, `Supported` which formats a type has, `MatrixText` what a matrix looks like. Proved: the
  choice of the format, round trips through files (from C72, C73), the matrix writer and that a matrix determines sizes and edges. Refuted: the documented errors, reading a matrix.
- **C90** (`Model/Program.lean`, `Props/Program.lean`). `main.py` as a program over the parsed options: checks, log level, lines shown, solution file. `Parsed` is what argparse's
  exclusive groups guarantee; `RunsOn` collects the conditions of C24. Proved by composing the option checks with C24, C46 and C19; file names by analysis of `splitext`.
  Refuted: that the verdict is shown without `-v`/`-vv`.
* **C91** (graph options of cnfgen). Model: `Cnfgen/CmdOptions.lean`, the `argparse` types and actions of `cmdline.py`; a result is a value, a usage message or an uncaught
  exception; `float()` is a parameter with values in {nan, ±inf, rationals}. Proved by case analysis for every string; the graphs by composing with C74 and C86.
  Refuted: refused values give an `AttributeError` instead of a message; `--gnp` lets `nan` pass.
* **C92** (`Model/Database.lean`, `Proofs/Database.lean`, `Props/Database.lean`). The data base is a map from table names to tables; a step is a run on the table of its mode (any of
  the runs of C36), `delete_gdb.py`, `gs_drop_all` or `create_global_table.py`. The rows a run adds are right in its own mode: every run is a run of the shared model
  (`Passes.reached`), whose invariant names the computed node behind each new row (`SInv.rowsIn`); then induction over the history. Deleting: case analysis on names.
* **C93** (`Cnfgen/CmdInts.lean`). The sub-commands with `Int` numbers, as `argparse` parses them: `range(1,n+1)` is empty for a negative `n`, `itertools.combinations` refuses a
  negative size, `networkx` makes an empty graph or (from 2.0 on, parameter `strict`) raises. Proof: equal to the command with natural numbers (C84) unless refused.
* **C94** (`Cnfgen/Provenance.lean`). The headers of the families over numbers only, `search_cmdline_input_file` and the LaTeX branch of `command_line_utility`; the comments of the DIMACS text
  through `Doc.applyAll`. Proof: induction over the transformations for the header; the text is a list of lines (`dimacsText_eq`); numbers are read off the header one by one (`number_then`).
* **C95** (`Props/GenComments.lean`). `main` of `tools/sabry_cnf_gen.hs` with its arguments (`read` is a parameter). Proof: the text as lines (`genText_announces`), the clauses through the
  circuit semantics of C32 (`mult_cnf`, `multCircuit_sat`); 2 and 3 by computing the formula.
* **C96** (`Cnfgen/Argparse.lean`, `Cnfgen/CommandLine.lean`, `Cnfgen/MainClear.lean`, `Cnfgen/FamilyExact.lean`). The part of `argparse` that `cnfgen` uses (classification of words, abbreviations, combined letters, negative numbers, sub-parsers) and
  the parsers of 13 families and of the transformations. Specification: a request with its words (`Request.words`, `TReq.words`) and what it asks for (`Asks`). Proof: induction over the words; the rest is C93. `C96_exact`: exactly the words accepted after the name of a family, with `Mixed` of C102 as specification.
* **C97** (`Cnfgen/GraphCommand.lean`, `Cnfgen/GraphLine.lean`). The parsers of the 12 families over simple graphs: options with one, two or more values, suffixes, exclusive groups, required graphs, and the
  way the graph is taken from them. Specification: a request as a list of items (`GRequest.words`), and the formula it asks for (`GRequest.Asks`). Proof: induction over the items, from the right
  (`optWords_items`); the values of each option from the items (`values_items`); the rest is C93. Not modelled: `--grid`, `--torus`, `--savegraph`, formats other than `kthlist` (the parameter `rest`).
* **C98** (`Cnfgen/BipCommand.lean`, `Cnfgen/BipLine.lean`). The parsers of the 5 families over bipartite and directed acyclic graphs, put together with those of C96 and C97 into one `cnfgenAll`: options with three
  values, the greedy `--bshift`, the suffix `_mapping`. Specification: `BRequest.words`, `BRequest.Asks`, `BadB`. Proof: as for C97; the values of the options are those of C91, the rest is C86 and C93.
  Not modelled: directed graphs read from a file, `--savegraph`, formats other than `kthlist` (the parameter `rest`).
* **C99** (`Cnfgen/DagText.lean`). Modelled: `DirectedAcyclicGraphHelper.obtain_graph` on the standard input in the kthlist format and the `build_cnf` of `peb`, `stone`, `stonesparse` on it.
  Specification: `DagListed` (a list of predecessors without a cycle, from C71), `DagCmd.Answers`. Proof: the reader of C71, the formulas of C64 and C82, the pipeline of C78.
* **C100** (`Cnfgen/CnfObject.lean`). Modelled: the class `CNF` as it is stored: `_index2name`, `_name2index`, `_clauses`, `_coherent`, and its methods that change or read them. Specification: `ObjCall.adds`,
  `ObjCall.names`, `ObjCall.Raises`, `usable`, `firstSeen`, on the history of calls and results. Proof: an invariant of the object, induction on the history; `C100_refines` links it to `CNF` of `Base.lean`.
* **C101** (`Model/MainLine.lean`, `Props/MainLine.lean`, `Props/MainLineExact.lean`, `Props/MainLineHelp.lean`). Modelled: the option table of `main.py` 137-170, how `argparse` classifies words (from C96), collects values, converts them, checks the exclusive groups
  and the required one, `-h`, `--version`, words left over and `--`; then `program` of C90. Specification: `SOpt.names` (the help text), `Spells`, `Writes`/`Written` (ways to write options), `GoodValues`, `OneEach`,
  `asked`. Proof: finite facts about the table by kernel computation (`decide +kernel`; all names and all their beginnings), the rest by induction over the words and the events; the verdict from C90.
  `C101_exact` (accepted exactly if `Reads`, with `WordMeans`, `Letters`, `IsValueWord` as specification) by inverting the classification of words.
* **C102** (`Cnfgen/ToolLine.lean`, `ToolLineSpec.lean`, `ToolLineProps.lean`, `ToolLineTrans.lean`). Modelled: the option tables of the three text tools, opening of the files, the way the options reach the tool of C78/C99. Specification:
  `ReadsAs` (for any table of option names, how words are read as options and left-over words), `FilesOk`, `Given`, `lastGiven`, `Reshuffled`. Proof: `argparse`'s fragment is characterized exactly for every tidy table
  (`parse_iff`), the shuffle by `shuffle_exact` (which clause is where, what every literal became), the transformations by C79/C96; `NamesTrans` says which words name a transformation, exactly (`C102_names_transformation`). Not covered: command lines with the word `--`.

## Axioms of each manifest theorem

Printed by `#print axioms` ("choice" = `Classical.choice`). No theorem uses anything else.

| property | theorem (namespace `NDP`) | axioms |
|---|---|---|
| C01 | `C01_sat_sound` | propext, choice, Quot.sound |
| C02 | `C02_unsat_sound` | propext, choice, Quot.sound |
| C03 | `C03_terminates` | propext, choice, Quot.sound |
| C04 | `C04_solution_correct` | propext, choice, Quot.sound |
| C05 | `C05_exit_same_verdict` | propext, choice, Quot.sound |
| C06 | `C06_mode_independent` | propext, choice, Quot.sound |
| C07 | `C07_threads_same_verdict` | propext, choice, Quot.sound |
| C08 | `C08_db_queue_transparent` | propext, Quot.sound |
| C08 | `C08_reinsert_breaks` | propext, Quot.sound |
| C09 | `C09_normalisation_terminates` | propext, choice, Quot.sound |
| C10 | `C10_normalised_order` | propext, choice, Quot.sound |
| C100 | `Cnfgen.C100_read` | propext, choice, Quot.sound |
| C100 | `Cnfgen.C100_call` | propext, choice, Quot.sound |
| C100 | `Cnfgen.C100_check` | propext, choice, Quot.sound |
| C100 | `Cnfgen.C100_dead` | propext, choice, Quot.sound |
| C100 | `Cnfgen.C100_refines` | propext, choice, Quot.sound |
| C101 | `C101_exact` | propext, choice, Quot.sound |
| C101 | `C101_unique` | propext, choice, Quot.sound |
| C101 | `C101_written` | propext, choice, Quot.sound |
| C101 | `C101_request` | propext, choice, Quot.sound |
| C101 | `C101_help` | propext, choice, Quot.sound |
| C101 | `C101_only_help` | propext, choice, Quot.sound |
| C101 | `C101_refused` | propext, choice, Quot.sound |
| C101 | `C101_every` | propext, choice, Quot.sound |
| C101 | `C101_parsed` | propext, choice, Quot.sound |
| C101 | `C101_two_meanings` | propext, choice, Quot.sound |
| C101 | `C101_negative_word` | propext, choice, Quot.sound |
| C101 | `C101_dashes` | propext, choice, Quot.sound |
| C101 | `C101_status` | propext, choice, Quot.sound |
| C101 | `C101_verdict` | propext, choice, Quot.sound |
| C102 | `Cnfgen.C102_unique` | propext, choice, Quot.sound |
| C102 | `Cnfgen.C102_cnfshuffle` | propext, choice, Quot.sound |
| C102 | `Cnfgen.C102_cnfshuffle_prints` | propext, choice, Quot.sound |
| C102 | `Cnfgen.C102_changes` | propext, choice, Quot.sound |
| C102 | `Cnfgen.C102_text_exact` | propext, choice, Quot.sound |
| C102 | `Cnfgen.C102_text_line` | propext, choice, Quot.sound |
| C102 | `Cnfgen.C102_names_transformation` | propext, choice, Quot.sound |
| C102 | `Cnfgen.C102_one_transformation` | propext, choice, Quot.sound |
| C102 | `Cnfgen.C102_transformation` | propext, choice, Quot.sound |
| C102 | `Cnfgen.C102_no_transformation` | propext, choice, Quot.sound |
| C102 | `Cnfgen.C102_dimacstransform_prints` | propext, choice, Quot.sound |
| C102 | `Cnfgen.C102_kthlist2pebbling_prints` | propext, choice, Quot.sound |
| C102 | `Cnfgen.C102_files` | propext, choice, Quot.sound |
| C11 | `C11_normalisation_renames` | propext, choice, Quot.sound |
| C12 | `C12_branching_exact` | propext, Quot.sound |
| C13 | `C13_tracking` | propext, choice, Quot.sound |
| C14 | `C14_body_identity` | propext, Quot.sound |
| C14 | `C14_body_not_const` | propext, Quot.sound |
| C14 | `C14_merge_only_identical` | propext, choice, Quot.sound |
| C15 | `C15_clause_canonical` | propext, choice, Quot.sound |
| C15 | `C15_four_literals_not_recognised` | propext |
| C16 | `C16_clause_order` | propext, choice, Quot.sound |
| C16 | `C16_literal_order` | propext, choice, Quot.sound |
| C17 | `C17_graph_well_formed` | propext, choice, Quot.sound |
| C17 | `C17_thief_workers_refuted` | propext, choice, Quot.sound |
| C18 | `C18_stats_exact` | propext, choice, Quot.sound |
| C19 | `C19_counts_agree` | propext, choice, Quot.sound |
| C19 | `C19_counter_exact` | propext, choice, Quot.sound |
| C19 | `C19_thief_workers_refuted` | propext, choice, Quot.sound |
| C20 | `C20_threads_same_graph` | propext, choice, Quot.sound |
| C20 | `C20_thief_workers_refuted` | propext, choice, Quot.sound |
| C21 | `C21_dimacs_faithful_partial` | propext, choice, Quot.sound |
| C21 | `C21_refused_iff` | propext, choice, Quot.sound |
| C21 | `C21_reads_seen` | propext, choice, Quot.sound |
| C21 | `C21_first_line_lost` | propext, choice, Quot.sound |
| C21 | `C21_blank_line_truncates` | propext, choice, Quot.sound |
| C21 | `C21_empty_clause_lost` | propext, choice, Quot.sound |
| C22 | `C22_line_faithful` | propext, choice, Quot.sound |
| C22 | `C22_roundtrip` | propext, choice, Quot.sound |
| C22 | `C22_malformed_is_silent` | propext, choice, Quot.sound |
| C23 | `C23_line_option_refuted` | propext, choice, Quot.sound |
| C24 | `C24_main_verdict_partial` | propext, choice, Quot.sound |
| C24 | `C24_tautologies_refuted` | propext, choice, Quot.sound |
| C25 | `C25_verify_exact` | propext, Quot.sound |
| C26 | `C26_solution_file` | propext, Quot.sound |
| C26 | `C26_solution_file_get` | propext, Quot.sound |
| C27 | `C27_properties_roundtrip` | propext, Quot.sound |
| C27 | `C27_negative_name_fails` | propext |
| C28 | `C28_substitution_exact` | propext, choice, Quot.sound |
| C28 | `C28_refused_is_plain` | propext, choice, Quot.sound |
| C29 | `C29_substitution` | propext, choice, Quot.sound |
| C29 | `C29_factorizer_partial` | propext, choice, Quot.sound |
| C29 | `C29_exact` | propext, choice, Quot.sound |
| C29 | `C29_recursive_misread` | propext, choice, Quot.sound |
| C30 | `C30_multiply` | propext, choice, Quot.sound |
| C31 | `C31_reported` | propext, Quot.sound |
| C31 | `C31_decoded_partial` | propext, choice, Quot.sound |
| C31 | `C31_messages_true` | propext, choice, Quot.sound |
| C32 | `Gen.C32_simulate` | propext, choice, Quot.sound |
| C32 | `Gen.C32_formula` | propext, choice, Quot.sound |
| C32 | `Gen.C32_satisfiable` | propext, choice, Quot.sound |
| C32 | `Gen.C32_carrySave_zero` | propext |
| C32 | `C32_text` | propext, choice, Quot.sound |
| C32 | `C32_main_verdict` | propext, choice, Quot.sound |
| C33 | `C33_factorization` | propext, choice, Quot.sound |
| C34 | `C34_refuted` | propext, choice, Quot.sound |
| C34 | `C34_rerun_same_verdict_partial` | propext, choice, Quot.sound |
| C34 | `gdb_run_is_local` | propext, choice, Quot.sound |
| C35 | `C35_resumed_verdict_partial` | propext, choice, Quot.sound |
| C35 | `C35_killed_table_sound` | propext, choice, Quot.sound |
| C35 | `C35_resume_iff` | propext, choice, Quot.sound |
| C35 | `C35_refuted` | propext, choice, Quot.sound |
| C36 | `C36_rows_sound_and_stable` | propext, choice, Quot.sound |
| C36 | `C36_from_empty` | propext, choice, Quot.sound |
| C37 | `C37_no_node_lost_partial` | propext, choice, Quot.sound |
| C37 | `C37_complete_when_done` | propext, choice, Quot.sound |
| C37 | `C37_no_node_lost_up_to_renaming_partial` | propext, choice, Quot.sound |
| C37 | `C37_thief_refuted` | propext, choice, Quot.sound |
| C38 | `C38_memory_fifo` | propext, Quot.sound |
| C38 | `C38_unique_fifo` | propext, Quot.sound |
| C38 | `C38_unique_pop` | propext, Quot.sound |
| C38 | `C38_unique_db_broken` | propext |
| C39 | `C39_refuted` | propext, choice, Quot.sound |
| C39 | `C39_hangs` | propext, choice, Quot.sound |
| C40 | `C40_num_of_vars_partial` | propext, choice, Quot.sound |
| C40 | `C40_refuted` | propext, choice, Quot.sound |
| C41 | `C41_trial_division` | propext, choice, Quot.sound |
| C41 | `C41_script_composite` | propext, choice, Quot.sound |
| C41 | `C41_script_prime_crashes` | propext, choice, Quot.sound |
| C42 | `C42_multiplication_partial` | propext, choice, Quot.sound |
| C42 | `C42_recursive_refused` | propext, choice, Quot.sound |
| C42 | `C42_messages_true` | propext, choice, Quot.sound |
| C43 | `C43_refuted` | propext, choice, Quot.sound |
| C44 | `C44_never_wrong` | propext, choice, Quot.sound |
| C44 | `C44_verdict` | propext, choice, Quot.sound |
| C44 | `C44_solution` | propext, choice, Quot.sound |
| C44 | `C44_terminates` | propext, choice, Quot.sound |
| C44 | `C44_progress` | propext, choice, Quot.sound |
| C45 | `C45_drawing_no_effect` | propext, choice, Quot.sound |
| C45 | `C45_drawing_shows_the_graph` | propext, choice, Quot.sound |
| C45 | `C45_drawing_is_true` | propext, choice, Quot.sound |
| C45 | `C45_figures_match` | propext, choice, Quot.sound |
| C45 | `C45_workers_not_drawn` | propext, choice, Quot.sound |
| C45 | `C45_workers_drawing_partial` | propext, choice, Quot.sound |
| C46 | `C46_solution_file_partial` | propext, choice, Quot.sound |
| C46 | `C26_solution_file_get` | propext, Quot.sound |
| C46 | `C24_tautologies_refuted` | propext, choice, Quot.sound |
| C47 | `C47_stored_counts` | propext, choice, Quot.sound |
| C47 | `C47_rerun_counts_partial` | propext, choice, Quot.sound |
| C48 | `Cnfgen.C48_less_than` | propext, choice, Quot.sound |
| C48 | `Cnfgen.C48_less_or_equal` | propext, choice, Quot.sound |
| C48 | `Cnfgen.C48_greater_than` | propext, choice, Quot.sound |
| C48 | `Cnfgen.C48_greater_or_equal` | propext, choice, Quot.sound |
| C48 | `Cnfgen.C48_equal_to` | propext, choice, Quot.sound |
| C48 | `Cnfgen.C48_loose_majority` | propext, choice, Quot.sound |
| C48 | `Cnfgen.C48_loose_minority` | propext, choice, Quot.sound |
| C48 | `Cnfgen.C48_exactly_half_ceil` | propext, choice, Quot.sound |
| C48 | `Cnfgen.C48_exactly_half_floor` | propext, choice, Quot.sound |
| C48 | `Cnfgen.C48_parity` | propext, choice, Quot.sound |
| C49 | `Cnfgen.UnaryMapping.C49_unary` | propext, choice, Quot.sound |
| C49 | `Cnfgen.BinaryMapping.C49_binary` | propext, choice, Quot.sound |
| C50 | `Cnfgen.C50_pigeonhole` | propext, choice, Quot.sound |
| C50 | `Cnfgen.C50_graph_pigeonhole` | propext, choice, Quot.sound |
| C50 | `Cnfgen.C50_graph_matching` | propext, choice, Quot.sound |
| C50 | `Cnfgen.C50_binary_pigeonhole` | propext, choice, Quot.sound |
| C51 | `Cnfgen.C51_graph_ordering` | propext, choice, Quot.sound |
| C51 | `Cnfgen.C51_ordering` | propext, choice, Quot.sound |
| C52 | `Cnfgen.C52_counting` | propext, choice, Quot.sound |
| C52 | `Cnfgen.C52_perfect_matching` | propext, choice, Quot.sound |
| C53 | `Cnfgen.C53_tseitin` | propext, choice, Quot.sound |
| C53 | `Cnfgen.C53_default` | propext, choice, Quot.sound |
| C54 | `Cnfgen.C54_coloring` | propext, choice, Quot.sound |
| C54 | `Cnfgen.C54_even_coloring` | propext, choice, Quot.sound |
| C54 | `Cnfgen.C54_even_coloring_doc_refuted` | propext, choice, Quot.sound |
| C55 | `Cnfgen.C55_or` | propext, choice, Quot.sound |
| C55 | `Cnfgen.C55_xor` | propext, choice, Quot.sound |
| C55 | `Cnfgen.C55_maj` | propext, choice, Quot.sound |
| C55 | `Cnfgen.C55_all_equal` | propext, choice, Quot.sound |
| C55 | `Cnfgen.C55_not_all_equal` | propext, choice, Quot.sound |
| C55 | `Cnfgen.C55_ite` | propext, choice, Quot.sound |
| C55 | `Cnfgen.C55_one` | propext, choice, Quot.sound |
| C55 | `Cnfgen.C55_lift` | propext, choice, Quot.sound |
| C55 | `Cnfgen.C55_flip` | propext, choice, Quot.sound |
| C55 | `Cnfgen.C55_compression` | propext, choice, Quot.sound |
| C56 | `Cnfgen.C56_shuffle` | propext, choice, Quot.sound |
| C56 | `Cnfgen.C56_out_of_range` | propext, Quot.sound |
| C56 | `Cnfgen.C56_out_of_range_refuted` | propext, choice, Quot.sound |
| C57 | `Cnfgen.C57_dimacs_roundtrip` | propext, choice, Quot.sound |
| C57 | `Cnfgen.C57_dimacs_standard` | propext, choice, Quot.sound |
| C57 | `Cnfgen.C57_solver_reads` | propext, choice, Quot.sound |
| C57 | `Cnfgen.C57_solver_verdict` | propext, choice, Quot.sound |
| C58 | `Cnfgen.C58_session` | propext, choice, Quot.sound |
| C58 | `Cnfgen.C58_families_proper` | propext, choice, Quot.sound |
| C58 | `Cnfgen.C58_more_families_proper` | propext, choice, Quot.sound |
| C59 | `Cnfgen.C59_ramsey` | propext, choice, Quot.sound |
| C59 | `Cnfgen.C59_pythagorean` | propext, choice, Quot.sound |
| C60 | `Cnfgen.C60_clique_coloring` | propext, choice, Quot.sound |
| C61 | `Cnfgen.C61_dominating_set` | propext, choice, Quot.sound |
| C62 | `Cnfgen.C62_subset_cardinality` | propext, choice, Quot.sound |
| C63 | `Cnfgen.C63_isomorphism` | propext, choice, Quot.sound |
| C63 | `Cnfgen.C63_automorphism` | propext, choice, Quot.sound |
| C64 | `Cnfgen.C64_pebbling` | propext, choice, Quot.sound |
| C64 | `Cnfgen.C64_stone` | propext, choice, Quot.sound |
| C64 | `Cnfgen.C64_sparse_stone` | propext, choice, Quot.sound |
| C64 | `Cnfgen.C64_builtin_dags` | propext, choice, Quot.sound |
| C65 | `Cnfgen.C65_subgraph` | propext, choice, Quot.sound |
| C65 | `Cnfgen.C65_clique` | propext, choice, Quot.sound |
| C65 | `Cnfgen.C65_binary_clique` | propext, choice, Quot.sound |
| C66 | `Cnfgen.C66_templates_partial` | propext, choice, Quot.sound |
| C66 | `Cnfgen.C66_two_templates_partial` | propext, choice, Quot.sound |
| C66 | `Cnfgen.C66_many_templates_partial` | propext, choice, Quot.sound |
| C66 | `Cnfgen.C66_ramsey_witness_partial` | propext, choice, Quot.sound |
| C66 | `Cnfgen.C66_ramsey_witness_diag` | propext, choice, Quot.sound |
| C66 | `Cnfgen.C66_ramsey_witness_sound` | propext, choice, Quot.sound |
| C66 | `Cnfgen.C66_order_refuted` | propext, choice, Quot.sound |
| C66 | `Cnfgen.C66_three_refuted` | propext, choice, Quot.sound |
| C66 | `Cnfgen.C66_ramsey_witness_refuted` | propext, choice, Quot.sound |
| C66 | `Cnfgen.C66_no_template` | propext, Quot.sound |
| C67 | `Cnfgen.C67_pigeonhole` | propext, choice, Quot.sound |
| C67 | `Cnfgen.C67_graph_pigeonhole` | propext, choice, Quot.sound |
| C67 | `Cnfgen.C67_binary_pigeonhole` | propext, choice, Quot.sound |
| C67 | `Cnfgen.C67_graph_ordering` | propext, choice, Quot.sound |
| C67 | `Cnfgen.C67_counting` | propext, choice, Quot.sound |
| C67 | `Cnfgen.C67_perfect_matching` | propext, choice, Quot.sound |
| C67 | `Cnfgen.C67_tseitin` | propext, choice, Quot.sound |
| C67 | `Cnfgen.C67_coloring` | propext, choice, Quot.sound |
| C67 | `Cnfgen.C67_even_coloring` | propext, choice, Quot.sound |
| C67 | `Cnfgen.C67_ramsey` | propext, choice, Quot.sound |
| C67 | `Cnfgen.C67_pythagorean` | propext, choice, Quot.sound |
| C67 | `Cnfgen.C67_clique_coloring` | propext, choice, Quot.sound |
| C67 | `Cnfgen.C67_subset_cardinality` | propext, choice, Quot.sound |
| C67 | `Cnfgen.C67_isomorphism` | propext, choice, Quot.sound |
| C67 | `Cnfgen.C67_automorphism` | propext, choice, Quot.sound |
| C67 | `Cnfgen.C67_pebbling` | propext, choice, Quot.sound |
| C67 | `Cnfgen.C67_stone` | propext, choice, Quot.sound |
| C67 | `Cnfgen.C67_sparse_stone` | propext, choice, Quot.sound |
| C67 | `Cnfgen.C67_dominating_set` | propext, choice, Quot.sound |
| C67 | `Cnfgen.C67_dominating_set_alternative` | propext, choice, Quot.sound |
| C67 | `Cnfgen.C67_subgraph` | propext, choice, Quot.sound |
| C67 | `Cnfgen.C67_subgraph_vars` | propext, choice, Quot.sound |
| C67 | `Cnfgen.C67_binary_clique` | propext, choice, Quot.sound |
| C68 | `Cnfgen.C68_random_kcnf` | propext, choice, Quot.sound |
| C68 | `Cnfgen.C68_count` | propext, choice, Quot.sound |
| C68 | `Cnfgen.C68_all_possible` | propext, choice, Quot.sound |
| C69 | `Cnfgen.C69_simple` | propext, choice, Quot.sound |
| C70 | `Cnfgen.C70_reader_sound` | propext, choice, Quot.sound |
| C70 | `Cnfgen.C70_reader_complete` | propext, choice, Quot.sound |
| C70 | `Cnfgen.C70_reader_total` | propext, Quot.sound |
| C70 | `Cnfgen.C70_reader_range` | propext, choice, Quot.sound |
| C71 | `Cnfgen.C71_kth_reject` | propext, choice, Quot.sound |
| C71 | `Cnfgen.C71_kth_simple` | propext, choice, Quot.sound |
| C71 | `Cnfgen.C71_kth_digraph` | propext, choice, Quot.sound |
| C71 | `Cnfgen.C71_kth_dag` | propext, choice, Quot.sound |
| C71 | `Cnfgen.C71_kth_bipartite` | propext, choice, Quot.sound |
| C71 | `Cnfgen.C71_kth_bipartite_sides` | propext, choice, Quot.sound |
| C71 | `Cnfgen.C71_same_side` | propext, choice, Quot.sound |
| C71 | `Cnfgen.C71_bipartite_refused` | propext, choice, Quot.sound |
| C71 | `Cnfgen.C71_topological_mark` | propext, choice, Quot.sound |
| C72 | `Cnfgen.C72_kth_simple` | propext, choice, Quot.sound |
| C72 | `Cnfgen.C72_kth_digraph` | propext, choice, Quot.sound |
| C72 | `Cnfgen.C72_kth_dag` | propext, choice, Quot.sound |
| C72 | `Cnfgen.C72_kth_bipartite` | propext, choice, Quot.sound |
| C72 | `Cnfgen.C72_kth_name` | propext, choice, Quot.sound |
| C72 | `Cnfgen.C72_kth_refuted` | propext, choice, Quot.sound |
| C73 | `Cnfgen.C73_dimacs_read` | propext, choice, Quot.sound |
| C73 | `Cnfgen.C73_dimacs_reject` | propext, choice, Quot.sound |
| C73 | `Cnfgen.C73_dimacs_dag` | propext, choice, Quot.sound |
| C73 | `Cnfgen.C73_dimacs_roundtrip` | propext, choice, Quot.sound |
| C73 | `Cnfgen.C73_out_of_range` | propext, choice, Quot.sound |
| C73 | `Cnfgen.C73_dimacs_refuted` | propext, choice, Quot.sound |
| C74 | `Cnfgen.C74_left_regular` | propext, choice, Quot.sound |
| C74 | `Cnfgen.C74_left_regular_all` | propext, choice, Quot.sound |
| C74 | `Cnfgen.C74_shift` | propext, choice, Quot.sound |
| C74 | `Cnfgen.C74_regular_errors` | propext, Quot.sound |
| C74 | `Cnfgen.C74_regular` | propext, choice, Quot.sound |
| C74 | `Cnfgen.C74_regular_all` | propext, choice, Quot.sound |
| C74 | `Cnfgen.C74_regular_refuted` | propext, choice, Quot.sound |
| C75 | `Cnfgen.C75_sample_refused` | propext, choice, Quot.sound |
| C75 | `Cnfgen.C75_sample` | propext, choice, Quot.sound |
| C75 | `Cnfgen.C75_sample_all` | propext, choice, Quot.sound |
| C75 | `Cnfgen.C75_add_edges` | propext, choice, Quot.sound |
| C75 | `Cnfgen.C75_plant_clique` | propext, choice, Quot.sound |
| C75 | `Cnfgen.C75_plant_biclique` | propext, choice, Quot.sound |
| C75 | `Cnfgen.C75_runtime_error` | propext, Quot.sound |
| C75 | `Cnfgen.C75_loop_refuted` | propext |
| C76 | `C76_never_wrongly_satisfiable` | propext, choice, Quot.sound |
| C76 | `C76_table_stays_right` | propext, choice, Quot.sound |
| C76 | `C76_terminates` | propext, choice, Quot.sound |
| C76 | `C76_reads_harmless` | propext, choice, Quot.sound |
| C76 | `C76_verdict_without_insert_faults` | propext, choice, Quot.sound |
| C76 | `C76_failed_insert_refuted` | propext, choice, Quot.sound |
| C77 | `Cnfgen.C77_minisat_right` | propext, choice, Quot.sound |
| C77 | `Cnfgen.C77_stdout_refuted` | propext, choice, Quot.sound |
| C77 | `Cnfgen.C77_no_command` | propext, choice, Quot.sound |
| C77 | `Cnfgen.C77_arguments` | propext, choice, Quot.sound |
| C77 | `Cnfgen.C77_not_started` | propext, choice, Quot.sound |
| C78 | `Cnfgen.C78_dimacstransform` | propext, choice, Quot.sound |
| C78 | `Cnfgen.C78_out_of_range` | propext, choice, Quot.sound |
| C78 | `Cnfgen.C78_dimacstransform_refusals` | propext, choice, Quot.sound |
| C78 | `Cnfgen.C78_cnfgen` | propext, choice, Quot.sound |
| C78 | `Cnfgen.C78_solver` | propext, choice, Quot.sound |
| C79 | `Cnfgen.C79_splitlist` | propext, Quot.sound |
| C79 | `Cnfgen.C79_pipe` | propext, choice, Quot.sound |
| C80 | `Cnfgen.C80_cnfshuffle` | propext, choice, Quot.sound |
| C80 | `Cnfgen.C80_cnfshuffle_refuted` | propext, choice, Quot.sound |
| C80 | `Cnfgen.C80_kthlist2pebbling` | propext, choice, Quot.sound |
| C80 | `Cnfgen.C80_kthlist2pebbling_clauses` | propext, choice, Quot.sound |
| C81 | `Cnfgen.C81_numbers` | propext, choice, Quot.sound |
| C81 | `Cnfgen.C81_dimacstransform` | propext, choice, Quot.sound |
| C82 | `Cnfgen.C82_pebbling` | propext, choice, Quot.sound |
| C82 | `Cnfgen.C82_stone` | propext, choice, Quot.sound |
| C82 | `Cnfgen.C82_sparse_stone` | propext, choice, Quot.sound |
| C82 | `Cnfgen.C82_graph_ordering` | propext, choice, Quot.sound |
| C82 | `Cnfgen.C82_pigeonhole` | propext, choice, Quot.sound |
| C82 | `Cnfgen.C82_graph_pigeonhole` | propext, choice, Quot.sound |
| C82 | `Cnfgen.C82_binary_pigeonhole` | propext, choice, Quot.sound |
| C82 | `Cnfgen.C82_counting` | propext, choice, Quot.sound |
| C82 | `Cnfgen.C82_perfect_matching` | propext, choice, Quot.sound |
| C82 | `Cnfgen.C82_tseitin` | propext, choice, Quot.sound |
| C82 | `Cnfgen.C82_coloring` | propext, choice, Quot.sound |
| C82 | `Cnfgen.C82_even_coloring` | propext, choice, Quot.sound |
| C82 | `Cnfgen.C82_ramsey` | propext, choice, Quot.sound |
| C82 | `Cnfgen.C82_clique_coloring` | propext, choice, Quot.sound |
| C82 | `Cnfgen.C82_subset_cardinality` | propext, choice, Quot.sound |
| C82 | `Cnfgen.C82_isomorphism` | propext, choice, Quot.sound |
| C82 | `Cnfgen.C82_automorphism` | propext, choice, Quot.sound |
| C82 | `Cnfgen.C82_pythagorean` | propext, choice, Quot.sound |
| C82 | `Cnfgen.C82_dominating_set` | propext, choice, Quot.sound |
| C82 | `Cnfgen.C82_dominating_set_alternative` | propext, choice, Quot.sound |
| C82 | `Cnfgen.C82_subgraph` | propext, choice, Quot.sound |
| C82 | `Cnfgen.C82_binary_clique` | propext, choice, Quot.sound |
| C83 | `C83_limited_or_overflow` | propext, choice, Quot.sound |
| C83 | `C83_no_stats` | propext, choice, Quot.sound |
| C83 | `C83_enough_frames` | propext, choice, Quot.sound |
| C83 | `C83_deep_run_raises` | propext, choice, Quot.sound |
| C83 | `C83_limit_exact` | propext, choice, Quot.sound |
| C84 | `Cnfgen.C84_obtain_graph` | propext, choice, Quot.sound |
| C84 | `Cnfgen.C84_command` | propext, choice, Quot.sound |
| C84 | `Cnfgen.C84_cnfgen` | propext, choice, Quot.sound |
| C85 | `Cnfgen.C85_three_coloring` | propext, choice, Quot.sound |
| C85 | `Cnfgen.C85_random` | propext, choice, Quot.sound |
| C85 | `Cnfgen.C85_pebbling` | propext, choice, Quot.sound |
| C85 | `Cnfgen.C85_pythagorean` | propext, choice, Quot.sound |
| C85 | `Cnfgen.C85_tseitin` | propext, choice, Quot.sound |
| C86 | `Cnfgen.C86_obtain_bipartite` | propext, choice, Quot.sound |
| C86 | `Cnfgen.C86_command` | propext, choice, Quot.sound |
| C86 | `Cnfgen.C86_cnfgen` | propext, choice, Quot.sound |
| C86 | `Cnfgen.C86_models` | propext, choice, Quot.sound |
| C87 | `Cnfgen.C87_command` | propext, choice, Quot.sound |
| C87 | `Cnfgen.C87_cnfgen` | propext, choice, Quot.sound |
| C87 | `Cnfgen.C87_names` | propext, choice, Quot.sound |
| C88 | `Cnfgen.C88_latex` | propext, choice, Quot.sound |
| C88 | `Cnfgen.C88_start` | propext, choice, Quot.sound |
| C88 | `Cnfgen.C88_determined` | propext, choice, Quot.sound |
| C88 | `Cnfgen.C88_same_text` | propext, choice, Quot.sound |
| C88 | `Cnfgen.C88_bar_misses_last` | propext, choice, Quot.sound |
| C88 | `Cnfgen.C88_numbers` | propext, choice, Quot.sound |
| C89 | `Cnfgen.C89_read` | propext, choice, Quot.sound |
| C89 | `Cnfgen.C89_autodetect` | propext, choice, Quot.sound |
| C89 | `Cnfgen.C89_roundtrip` | propext, choice, Quot.sound |
| C89 | `Cnfgen.C89_matrix_write` | propext, choice, Quot.sound |
| C89 | `Cnfgen.C89_matrix_determined` | propext, choice, Quot.sound |
| C89 | `Cnfgen.C89_wrong_choice` | propext, choice, Quot.sound |
| C89 | `Cnfgen.C89_matrix_unreadable` | propext, choice, Quot.sound |
| C89 | `Cnfgen.C89_roundtrip_bipartite` | propext, choice, Quot.sound |
| C89 | `Cnfgen.C89_roundtrip_dag` | propext, choice, Quot.sound |
| C89 | `Cnfgen.C89_wrong_choice_write` | propext, choice, Quot.sound |
| C90 | `C90_status` | propext, choice, Quot.sound |
| C90 | `C90_verdict_shown` | propext, choice, Quot.sound |
| C90 | `C90_verdict_hidden` | propext, choice, Quot.sound |
| C90 | `C90_silent` | propext, choice, Quot.sound |
| C90 | `C90_quiet_nodes` | propext, choice, Quot.sound |
| C90 | `C90_solution_name` | propext, choice, Quot.sound |
| C90 | `C90_solution_name_eq` | propext, choice, Quot.sound |
| C90 | `C90_solution_file` | propext, choice, Quot.sound |
| C90 | `C90_line_option` | propext, choice, Quot.sound |
| C91 | `Cnfgen.C91_plain` | propext, Quot.sound |
| C91 | `Cnfgen.C91_bm` | propext, Quot.sound |
| C91 | `Cnfgen.C91_bd` | propext, Quot.sound |
| C91 | `Cnfgen.C91_bregular` | propext, choice, Quot.sound |
| C91 | `Cnfgen.C91_bp` | propext, Quot.sound |
| C91 | `Cnfgen.C91_gnp` | propext, choice, Quot.sound |
| C91 | `Cnfgen.C91_bshift` | propext, choice, Quot.sound |
| C91 | `Cnfgen.C91_bd_graph` | propext, choice, Quot.sound |
| C91 | `Cnfgen.C91_bregular_graph` | propext, choice, Quot.sound |
| C91 | `Cnfgen.C91_bcomplete_graph` | propext, choice, Quot.sound |
| C91 | `Cnfgen.C91_bshift_graph` | propext, choice, Quot.sound |
| C92 | `C92_tables` | propext, choice, Quot.sound |
| C92 | `C92_isolated` | propext, choice, Quot.sound |
| C92 | `C92_rows_kept` | propext, choice, Quot.sound |
| C92 | `C92_verdict` | propext, choice, Quot.sound |
| C92 | `C92_delete` | propext, choice, Quot.sound |
| C92 | `C92_delete_else` | propext, choice, Quot.sound |
| C92 | `C92_delete_then_run` | propext, choice, Quot.sound |
| C92 | `C92_normal_table_stays` | propext, choice, Quot.sound |
| C92 | `C92_options_share_table` | propext, choice, Quot.sound |
| C93 | `Cnfgen.C93_command` | propext, choice, Quot.sound |
| C93 | `Cnfgen.C93_cnfgen` | propext, choice, Quot.sound |
| C93 | `Cnfgen.C93_strict` | propext, choice, Quot.sound |
| C93 | `Cnfgen.C93_no_exceptions_refuted` | propext, choice, Quot.sound |
| C94 | `Cnfgen.C94_comments` | propext, choice, Quot.sound |
| C94 | `Cnfgen.C94_header` | propext, choice, Quot.sound |
| C94 | `Cnfgen.C94_header_refuted` | propext, choice, Quot.sound |
| C94 | `Cnfgen.C94_latex_refuted` | propext, choice, Quot.sound |
| C94 | `Cnfgen.C94_latex_error` | propext, choice, Quot.sound |
| C95 | `Gen.C95_comments` | propext, choice, Quot.sound |
| C95 | `Gen.C95_arguments` | propext, choice, Quot.sound |
| C95 | `Gen.C95_small_refuted` | propext, choice, Quot.sound |
| C96 | `Cnfgen.C96_understood` | propext, choice, Quot.sound |
| C96 | `Cnfgen.C96_transformation` | propext, choice, Quot.sound |
| C96 | `Cnfgen.C96_cnfgen` | propext, choice, Quot.sound |
| C96 | `Cnfgen.C96_accepted` | propext, choice, Quot.sound |
| C96 | `Cnfgen.C96_wrong_count` | propext, choice, Quot.sound |
| C96 | `Cnfgen.C96_nothing` | propext, choice, Quot.sound |
| C96 | `Cnfgen.C96_exact` | propext, choice, Quot.sound |
| C96 | `Cnfgen.C96_refused` | propext, choice, Quot.sound |
| C96 | `Cnfgen.C96_words` | propext, choice, Quot.sound |
| C96 | `Cnfgen.clear_iff` | propext, choice, Quot.sound |
| C96 | `Cnfgen.C96_two_meanings` | propext, choice, Quot.sound |
| C96 | `Cnfgen.C102_names_transformation` | propext, choice, Quot.sound |
| C97 | `Cnfgen.C97_understood` | propext, choice, Quot.sound |
| C97 | `Cnfgen.C97_refused` | propext, choice, Quot.sound |
| C97 | `Cnfgen.C97_two_sources` | propext, choice, Quot.sound |
| C97 | `Cnfgen.C97_needs_graph` | propext, choice, Quot.sound |
| C97 | `Cnfgen.C97_grid_swallows` | propext, choice, Quot.sound |
| C97 | `Cnfgen.C97_cnfgen` | propext, choice, Quot.sound |
| C97 | `Cnfgen.graphCommand_iff` | propext, choice, Quot.sound |
| C97 | `Cnfgen.C97_bad_value` | propext, choice, Quot.sound |
| C97 | `Cnfgen.C97_help` | propext, choice, Quot.sound |
| C98 | `Cnfgen.C98_understood` | propext, choice, Quot.sound |
| C98 | `Cnfgen.C98_refused` | propext, choice, Quot.sound |
| C98 | `Cnfgen.C98_conflict` | propext, choice, Quot.sound |
| C98 | `Cnfgen.C98_bad_value` | propext, choice, Quot.sound |
| C98 | `Cnfgen.C98_cnfgen` | propext, choice, Quot.sound |
| C98 | `Cnfgen.C98_pebbling` | propext, choice, Quot.sound |
| C98 | `Cnfgen.C98_others` | propext, choice, Quot.sound |
| C98 | `Cnfgen.bipCommand_iff` | propext, choice, Quot.sound |
| C98 | `Cnfgen.C98_help` | propext, choice, Quot.sound |
| C99 | `Cnfgen.C99_command` | propext, choice, Quot.sound |
| C99 | `Cnfgen.C99_cnfgen` | propext, choice, Quot.sound |
| C99 | `Cnfgen.C99_peb` | propext, choice, Quot.sound |
| C99 | `Cnfgen.C99_one_stdin` | propext, choice, Quot.sound |
| C99 | `Cnfgen.C99_clauses` | propext, choice, Quot.sound |
| C99 | `Cnfgen.C99_sparse_clauses` | propext, choice, Quot.sound |

## Findings: where the code does not do what a user expects

Each is a theorem unless marked (read) — seen in the source, outside the model.

* `-l` never solves its argument: every such run ends in an exception (`C23_line_option_refuted`).
* An input of tautologies only ends in `ValueError` instead of "satisfiable" (`C24_tautologies_refuted`).
* DIMACS: the first line is dropped whatever it contains, everything after a blank line is dropped, an empty clause is ignored
  (`C21_*`). A malformed single-line file gives an empty run without a message (`C22_malformed_is_silent`).
* A clause with more than three literals and a hidden tautology is not recognised as one (`C15_four_literals_not_recognised`).
* Global DB: running the same satisfiable formula a second time reports "Not satisfiable" (`C34_refuted`); a run resumed after an
  interruption ends in an error as soon as it needs a child from the table whose name map is empty (`C35_refuted`, `C35_resume_iff`).
* A rerun with the global DB reports the stored figures but prints "Number of unique nodes: 0" (`C47_rerun_counts_partial`).
* A worker whose connection fails makes the main process wait forever (`C39_hangs`); a failed main connection is reported
  as "Not satisfiable" (`C43_refuted`).
* `num_of_vars` stores the last literal's variable (`C40_refuted`).
* Inserting a known id in the runtime DB aborts the transaction, the next pop fails (`C08_reinsert_breaks`); `unique_queue` with a runtime DB
  never works (`C38_unique_db_broken`).
* Negative variable names cannot be stored (`C27_negative_name_fails`).
* The recursive multiplier's output widths are misread by `Factorizer.py` from 2^21 on, except below 2^40 on numbers with an
  even number of binary digits (`C29_exact`, `C29_recursive_misread`), and `-mult` refuses them (`C42_recursive_refused`). The generator does not support N < 4; the carry-save multiplier fails on 0.
* `tools/factorize.py` prints a string for a prime and then fails with `TypeError` (`C41_script_prime_crashes`).
* `verify_solution` and `format_solution` ignore their argument and use the object's fields (modelled as they are).
* cnfgen: the documentation of the even coloring formula is wrong about which graphs make it satisfiable
  (`Cnfgen.C54_even_coloring_doc_refuted`). (read) `collections.Iterable` and `G.node` no longer exist in current Python/networkx;
  some `ValueError`s are built but not raised; `add_clause_unsafe` is documented to add unknown variables but raises `KeyError`;
  `Shuffle` is documented as giving a logically equivalent formula but with flips it is only equisatisfiable; `dimacs2cnf` ignores the
  result of its coherence check, and its test `m=='-1'` never holds; the header text after the last line break is not printed; the number of bits of a binary mapping is a rounded floating point logarithm.
* cnfgen: with two templates the subgraph formula also demands that the larger template fits into the number of vertices; with three and more,
  the selector is used with the wrong polarity and all templates but one must fit at the same place (`Cnfgen.C66_order_refuted`,
  `Cnfgen.C66_three_refuted`); `RamseyWitnessFormula` with k ≠ s is unsatisfiable for graphs that have the clique
  (`Cnfgen.C66_ramsey_witness_refuted`), and its documentation says the opposite ("neither ... nor"). (read) `DominatingSet` with a
  bound below 1 builds but does not raise its `ValueError`; the kthlist reader's topological order test is reversed.
* Graph files: a bipartite kthlist may have edges inside a side (`Cnfgen.C71_same_side`) and bipartite graphs may be refused
  (`Cnfgen.C71_bipartite_refused`); the mark `topologically_sorted` is given to the reverse of a topological order
  (`Cnfgen.C71_topological_mark`); files written for graphs whose name has several lines are refused (`Cnfgen.C72_kth_refuted`,
  `Cnfgen.C73_dimacs_refuted`); vertices out of the announced range are accepted in dimacs files (`Cnfgen.C73_out_of_range`). (read) the matrix
  format cannot be read in Python 3 at all (`scanner.next()`, `raise StopIteration` in a generator).
* `bipartite_random_regular` may return a graph that is not regular (`Cnfgen.C74_regular_refuted`), and fails with `ZeroDivisionError` for r = 0.
* `sample_missing_edges` counts a loop as one of the possible edges (`Cnfgen.C75_loop_refuted`).
* `gs_insert_row` takes every database error for a primary-key violation: the children of the node are dropped, and a satisfiable formula is reported
  as not satisfiable (`C76_failed_insert_refuted`).
* `is_satisfiable` works only through the `minisat` interface on Python 3: solvers answering on standard output always end in `RuntimeError`
  (`Cnfgen.C77_stdout_refuted`), and with no command given any installed solver before `minisat` in the list does
  (`Cnfgen.C77_no_command`); for a formula without clauses the witness may be `None` (in `Cnfgen.C77_minisat_right`).
* `cnfshuffle` (and `-T shuffle`) on a text with literals out of range silently identifies different literals and can turn a satisfiable formula into an
  unsatisfiable one (`Cnfgen.C56_out_of_range_refuted`, `Cnfgen.C80_cnfshuffle_refuted`); the other transformations stop with a failed assertion
  (`Cnfgen.C78_out_of_range`).
* Tools: `-i FILE` is always refused, since text files cannot be unbuffered, and writing to a binary output always fails
  (`Cnfgen.C78_dimacstransform_refusals`); a command line without a transformation ends in an `AttributeError`. (read) `-of latex` of cnfgen uses the
  undefined name `file`; error handlers use `e.message`, which Python 3 does not have; `has_bipartition` uses `G.node`, gone since networkx 2.4.
* A run with statistics (the default) of a formula whose satisfying assignments all need more variables than the call stack has frames (about 2000) ends with
  `RecursionError` after the solution was found, and reports neither verdict nor solution (`C83_deep_run_raises`, `C83_limit_exact`).
* (read) `cmdline.py` with Python 3: `-i <file>` always fails (`argparse.FileType('r',0)` asks for unbuffered text), so graphs can only come from standard input; the
  argument actions use `e.message`, which no longer exists (`AttributeError` instead of a message on bad values); `random.sample` on a networkx node view is a
  `TypeError` from Python 3.11 on; the message for an unknown graph format concatenates a string and a list (`TypeError`).
* With `-th` and several processes on the global table, a row can name a child that is never stored (`C37_thief_refuted`): two processes hold one node in
  two representations, whose branches are normalised differently; the one whose insertion fails drops its children but still counts them as known. The
  verdict is not affected (`C44_verdict`).
* cnfgen: the LaTeX output puts the bar of a negative literal over `name[:name.find("_")]`; without an underscore `find` gives -1, so the last character stands
  outside the bar and a one-letter name has no bar at all (`Cnfgen.C88_bar_misses_last`). With numbered variables (a formula read from a DIMACS file) any
  negative literal ends in an `AttributeError` (`Cnfgen.C88_numbers`).
* cnfgen: `readGraph`/`writeGraph` add a list to a string when they report an unsupported type or format, so a `TypeError` instead of the documented `ValueError`
  (`Cnfgen.C89_wrong_choice`); the matrix reader calls `scanner.next()`, so no matrix can be read on Python 3 (`Cnfgen.C89_matrix_unreadable`). (read) With that call
  repaired it would still fail: the generator's `raise StopIteration` is a `RuntimeError` since Python 3.7.
* Without `-v` or `-vv` the program shows neither verdict nor solution nor the answer of `-verify` (they are `logger.info` messages, the level is WARNING), and the
  exit status is always 0 (`C90_verdict_hidden`, `C90_silent`).
* cnfgen graph options: the actions of `--gnp --bp --bm --bd --bregular --bshift` report a refused value with `e.message`, which does not exist in Python 3, so that the user gets a traceback (C91); `--gnp n nan` is accepted.
* The table of mode `normal` is in neither list of tables to delete, so no script removes it (C92); runs with and without `-z`/`-thief` share a table, so the statistics
  of a run can be those of the other option (C92).
* `cnfgen -of latex` never works: `search_cmdline_input_file` uses `file`, which Python 3 does not have (`C94_latex_refuted`, `C94_latex_error`).
* `cnfgen empty` and `cnfgen emptyclause` write the same header (`C94_header_refuted`).
* `tools/sabry_cnf_gen.hs` accepts the primes 2 and 3 and prints a satisfiable formula for them (`C95_small_refuted`): the factors have one bit each, and `zipWithM_` in `assert_n` drops the top bit of the number.
* (C97) `cnfgen kcolor --grid 3 3 4`: `--grid` and `--torus` have `nargs='+'` and take the number of colours as a dimension; the command line is refused. The number has to come first. `--input <file>` is refused by Python 3 (`FileType('r',0)` asks for unbuffered text): only the standard input can be read; and there the format has to be given, since the default `autodetect` needs a file name.
* (C100, proved) `add_clause` with opposite literals of a variable whose name is not a string raises `TypeError` instead of `ValueError`: the message joins the names (`cnf.py` 395).
* (C100, proved) `C100_dead`: after `_add_compressed_clauses` with a number that has no variable, the object is lost: `add_variable` refuses to work until the check succeeds, and the check cannot succeed
  without the variable. The DIMACS reader ignores the result of the check (`utils/__init__.py` 106), so the error appears only when the formula is used, as a bare `AssertionError`.
* `main.py` option names: one-letter options and long names with one dash overlap, so that `-ve`, `-th`, `-gd`, `-mu` are refused as ambiguous while `-f`, `-n`, `-r` are accepted; `-l "-1|2&3"` is refused, because
  a word that begins with a dash is no value (`C101_two_meanings`, `C101_negative_word`).
* (C102, proved) `cnfshuffle`, `dimacstransform`, `kthlist2pebbling`: `-i FILE` never works and `-o FILE` never writes the formula (`C102_files`); `-p=v` is read by `argparse` as
  `-p -v`; without a transformation the last two end in an `AttributeError` (`C102_no_transformation`).
* (C96, proved) `cnfgen php 3 2 --o` is refused, though `--o` is an abbreviation of `--onto` only among the options of `php`: the general parser looks at every word and finds `--output` and
  `--output-format` (`C96_two_meanings`).
* (read) `audioop` no longer exists in Python 3.13.

## Files

`Verif/Py.lean` (Python), `Verif/Spec*.lean` (specification), `Verif/Model/` (the program), `Verif/Lib/` and `Verif/Proofs/` (lemmas),
`Verif/Props/` (the properties, with examples). `properties.jsonl`: the properties in English. `MANIFEST.json`: theorem
names. `Verif/Cnfgen/`: the formula generator, model and proofs by family. `seeded/LOG.jsonl`: wrong programs tried.
