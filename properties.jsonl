{"id": "C01", "title": "A SATISFIABLE verdict is sound", "statement": "If a run on an input CNF finishes and reports SATISFIABLE, the input CNF has a satisfying assignment.", "quantifier": "every CNF of non-tautological clauses, every mode (flo, flop, lo, lou, normal), every combination of -z, -thief, -e, in-memory or runtime-DB queue, any hash that does not collide on the bodies met in the run", "why_tests_cant": "the set of formulas is infinite and a wrong rename/branch/merge step can surface only at depth on rare formulas", "anchors": ["PatternSolver.py:process_nodes_queue", "PatternSolver.py:solve_set", "Set.py:evaluate", "Set.py:to_lo_condition"]}
{"id": "C02", "title": "A NOT-SATISFIABLE verdict is sound", "statement": "If a run on an input CNF finishes and reports not satisfiable, no assignment satisfies the input CNF (no branch is lost to merging of equal nodes, queueing, or normalisation).", "quantifier": "every CNF, mode and flag combination as in C01", "why_tests_cant": "absence of a solution is a statement about all assignments; a test checks a few formulas", "anchors": ["PatternSolver.py:process_nodes_queue", "Set.py:evaluate"]}
{"id": "C03", "title": "Solving always finishes", "statement": "On every non-empty CNF whose clauses are non-empty and mention each variable at most once, solving terminates and raises no exception, in every mode.", "quantifier": "every such CNF, mode and flags", "why_tests_cant": "termination quantifies over all inputs; the repo itself carries a note about a hanging input", "anchors": ["PatternSolver.py:process_nodes_queue", "Set.py:to_lo_condition", "inputs/test_cases/notes.txt"]}
{"id": "C04", "title": "The reported solution satisfies the input", "statement": "The solution printed/written by a run makes at least one literal of every clause of the input CNF true, in the input's own variable numbering, so -verify always answers VERIFIED.", "quantifier": "every satisfiable CNF, mode and flags as in C01", "why_tests_cant": "the solution is assembled through an unbounded number of renamings", "anchors": ["PatternSolver.py:process_nodes_queue", "PatternSolver.py:verify_solution", "Set.py:evaluate", "Set.py:rename_vars"]}
{"id": "C05", "title": "Exit-upon-solving does not change the verdict", "statement": "With -e the run reports SATISFIABLE exactly when the run without -e does, and its solution is still a correct one.", "quantifier": "every CNF, mode and flags", "why_tests_cant": "needs all formulas and all positions of the first solution in the search", "anchors": ["PatternSolver.py:process_nodes_queue"]}
{"id": "C06", "title": "The verdict does not depend on mode or sort options", "statement": "Two runs on the same CNF with different modes and -z/-thief settings report the same verdict.", "quantifier": "every CNF and every pair of configurations", "why_tests_cant": "cross product of infinitely many formulas with all configurations", "anchors": ["Set.py:to_lo_condition", "PatternSolver.py:solve_set"]}
{"id": "C07", "title": "Multi-process solving gives the single-process verdict", "statement": "With -t N (no DB) the verdict equals the single-process verdict and the solution is correct, whatever order the worker processes finish in.", "quantifier": "every CNF, every N, every completion order of the workers", "why_tests_cant": "schedules cannot be enumerated by tests", "anchors": ["PatternSolver.py:process_nodes_queue (lines 394-455)"]}
{"id": "C08", "title": "The runtime-DB queue is transparent", "statement": "A node written to the runtime DB queue and read back is the same node: same clauses, same identity, same partial assignment, same name maps; the queue is FIFO.", "quantifier": "every node that is ever queued, every interleaving of insert and pop", "why_tests_cant": "round trip must hold for every body and property string", "anchors": ["SuperQueue.py:SuperQueue", "Set.py:serialize_properties", "Set.py:deserialize_properties", "Set.py:__init__"]}
{"id": "C09", "title": "Normalisation terminates", "statement": "Bringing a set to the linearly-ordered condition terminates for every set with non-empty clauses, in every mode (in lou and normal mode after exactly one renaming).", "quantifier": "every set of non-empty clauses and every mode/flag combination", "why_tests_cant": "the loop has no explicit bound; termination is a global argument", "anchors": ["Set.py:to_lo_condition", "Set.py:rename_vars", "Set.py:is_in_lo_state"]}
{"id": "C10", "title": "Normalisation establishes the ordering conditions", "statement": "After normalisation literals inside each clause are in ascending variable order, variables are numbered 1..n in order of first occurrence, and (flo, flop, lo) clauses are ordered by leading variable.", "quantifier": "every set of non-empty clauses with distinct variables per clause and every mode", "why_tests_cant": "must hold for every clause list", "anchors": ["Set.py:to_lo_condition", "Set.py:is_in_lo_state"]}
{"id": "C11", "title": "Normalisation only renames and reorders", "statement": "Normalising a set yields the same multiset of clauses up to an injective renaming of variables that preserves signs, and the recorded name map sends each new name back to the name it had before.", "quantifier": "every set, mode and flag combination", "why_tests_cant": "the composition of unboundedly many renamings must stay a bijection", "anchors": ["Set.py:rename_vars", "Set.py:sort_clauses", "Set.py:to_lo_condition"]}
{"id": "C12", "title": "Branching is exact", "statement": "Evaluating a set produces two children: the first is equivalent to the set with the leading variable true, the second with it false; a child is T/F exactly when no clause is left / some clause became empty.", "quantifier": "every set and every assignment", "why_tests_cant": "equivalence quantifies over all assignments", "anchors": ["Set.py:evaluate"]}
{"id": "C13", "title": "Partial assignments and names are tracked exactly", "statement": "At every node reached in the search the recorded partial assignment and name map relate the node to the input: the clauses of the node are exactly the residual clauses of the input under the partial assignment, translated through the name map.", "quantifier": "every node at every depth of every run", "why_tests_cant": "invariant over unbounded search histories", "anchors": ["Set.py:evaluate", "Set.py:rename_vars", "PatternSolver.py:process_nodes_queue"]}
{"id": "C14", "title": "Only identical sets are merged", "statement": "Two sets have the same serialized body iff they have the same clause list, so a node is dropped as redundant only when a node with the same clauses is already in the graph (absent hash collisions).", "quantifier": "every pair of sets of non-empty clauses", "why_tests_cant": "injectivity over all pairs", "anchors": ["Set.py:to_string", "Set.py:get_hash", "PatternSolver.py:process_nodes_queue"]}
{"id": "C15", "title": "Clause construction is canonical", "statement": "A clause built from up to three literals does not depend on the order or repetition of its literals in the input, is recognised as tautological exactly when it contains a variable with both signs, and otherwise stores each literal once in ascending variable order.", "quantifier": "every list of at most three literals", "why_tests_cant": "all literal lists and orders", "anchors": ["Clause.py:__init__", "Clause.py:sort", "InputReader.py:__parse_dimacs_file", "Set.py:__init__"]}
{"id": "C16", "title": "Clause comparison is a strict total order", "statement": "The comparison used to sort clauses is irreflexive, transitive and total on literal lists, so sorting yields a sorted stable permutation.", "quantifier": "all pairs and triples of clauses", "why_tests_cant": "order axioms quantify over all triples", "anchors": ["Clause.py:__lt__", "Set.py:sort_clauses"]}
{"id": "C17", "title": "The solution graph is well formed", "statement": "In the node graph produced by a run every edge leads to a recorded node, the edges of a node are its non-constant normalised children, every node is reachable from the root and the graph is acyclic.", "quantifier": "every run without early exit, every mode", "why_tests_cant": "invariant of an unbounded search", "anchors": ["PatternSolver.py:process_nodes_queue", "PatternSolver.py:construct_graph_stats"]}
{"id": "C18", "title": "Graph statistics are exact", "statement": "For every node the reported unique count is the number of nodes reachable from it, the redundant count is the number of reachable nodes entered by more than one edge, and redundant hits is the number of edge traversals into an already visited node.", "quantifier": "every finite acyclic graph and node", "why_tests_cant": "the traversal must be right on all graphs", "anchors": ["PatternSolver.py:get_node_subgraph_stats", "PatternSolver.py:construct_graph_stats"]}
{"id": "C19", "title": "The two node counts agree", "statement": "After a complete run the number of nodes in the graph equals the unique count computed for the root.", "quantifier": "every complete run", "why_tests_cant": "needs the reachability invariant of all runs", "anchors": ["PatternSolver.py:solve_set"]}
{"id": "C20", "title": "Multi-process graph equals single-process graph", "statement": "With -t N and no -e the merged node graph is the graph a single process builds, whatever order the workers finish in.", "quantifier": "every CNF, N and completion order (no -thief)", "why_tests_cant": "schedules x formulas", "anchors": ["PatternSolver.py:process_nodes_queue (lines 410-455)"]}
{"id": "C21", "title": "DIMACS reading is faithful", "statement": "Reading a DIMACS file yields a set equivalent to the conjunction of the clauses in the file.", "quantifier": "every DIMACS text", "why_tests_cant": "all texts; the parser has line-level control flow", "anchors": ["InputReader.py:__parse_dimacs_file"]}
{"id": "C22", "title": "Single-line reading is faithful", "statement": "Reading a single-line formula a|b|c&d|e yields a set equivalent to the written formula, and reading back a serialized set yields the same clauses.", "quantifier": "every formula text in the format", "why_tests_cant": "all texts", "anchors": ["Set.py:__init__", "InputReader.py:__parse_single_line_input"]}
{"id": "C23", "title": "The -l option solves its argument", "statement": "A formula given on the command line with -l is parsed and solved like the same formula in a file.", "quantifier": "every formula string", "why_tests_cant": "must hold for all strings", "anchors": ["InputReader.py:get_cnf_set", "main.py:Main"]}
{"id": "C24", "title": "Every satisfiable input is reported satisfiable, including trivially true ones", "statement": "An input whose clauses are all tautologies is reported satisfiable.", "quantifier": "every input consisting of tautological clauses", "why_tests_cant": "all such inputs", "anchors": ["Set.py:add_clause", "Set.py:rename_vars", "PatternSolver.py:solve_set"]}
{"id": "C25", "title": "Solution verification is exact", "statement": "verify_solution answers true iff the solution makes at least one literal of every clause true.", "quantifier": "every clause list and solution", "why_tests_cant": "all inputs", "anchors": ["PatternSolver.py:verify_solution"]}
{"id": "C26", "title": "The solution file records the assignment", "statement": "The formatted solution lists under T exactly the variables assigned true and under F exactly those assigned false.", "quantifier": "every solution map", "why_tests_cant": "all maps", "anchors": ["PatternSolver.py:format_solution"]}
{"id": "C27", "title": "Node properties round-trip through their string form", "statement": "Serializing the partial assignment and name maps of a node and parsing the string back yields the same maps.", "quantifier": "every node with natural-number names", "why_tests_cant": "all maps and all decimal strings", "anchors": ["Set.py:serialize_properties", "Set.py:deserialize_properties"]}
{"id": "C28", "title": "Substitution is exact", "statement": "Substituting values for variables removes exactly the clauses made true, removes exactly the falsified literals from the others and flags a clause as false iff it becomes empty; an assignment extending the values satisfies the result iff it satisfies the original.", "quantifier": "every set and value map", "why_tests_cant": "all sets, maps, assignments", "anchors": ["Set.py:substitute_vars"]}
{"id": "C29", "title": "Factorization preprocessing is sound", "statement": "Preprocessing a multiplier CNF for factorization reads the factored number and the factor widths correctly and keeps satisfiability; any solution of the preprocessed CNF extends to the original.", "quantifier": "every multiplier CNF produced by the bundled generator (and, for the substitution part, every CNF)", "why_tests_cant": "all numbers and circuit sizes", "anchors": ["Factorizer.py:preprocess_set"]}
{"id": "C30", "title": "Multiplication preprocessing is sound", "statement": "Preprocessing a multiplier CNF for multiplying a x b fixes exactly the input bits of the two factors (larger first), rejects factors that do not fit, and drops exactly the output assertions.", "quantifier": "every multiplier CNF and every pair of factors", "why_tests_cant": "all numbers and sizes", "anchors": ["Multiply.py:preprocess_set"]}
{"id": "C31", "title": "Decoded factors are right", "statement": "When a factorization run reports 'N = a x b' then N = a*b, and for CNFs of the bundled generator the decoded factors are the values of the factor bits in the solution (the 'Something is wrong' branch is never taken).", "quantifier": "every number and solution", "why_tests_cant": "all solutions, which may omit don't-care variables", "anchors": ["PatternSolver.py:solve_set (lines 585-602)"]}
{"id": "C32", "title": "The multiplier circuits multiply", "statement": "Simulating each generator multiplier (wallace, carry-save, recursive; n-bit or fast adder) on two bit vectors (nonempty ones for carry-save) yields the bits of the product; for every number N >= 4 the generated CNF has a model extending given input bits iff the product of the two input numbers is N, hence is satisfiable iff N is composite.", "quantifier": "every pair of bit vectors and every circuit option", "why_tests_cant": "all widths", "anchors": ["tools/sabry_cnf_gen.hs"]}
{"id": "C33", "title": "Factorization end to end", "statement": "For every N with at least three bits, generating the CNF, reading it and solving with -fact reports a true factorization when N is composite and 'prime' when N is prime.", "quantifier": "every N >= 4, wallace/carry-save multiplier, every mode", "why_tests_cant": "primality of all numbers", "anchors": ["tools/sabry_cnf_gen.hs", "Factorizer.py", "PatternSolver.py:solve_set"]}
{"id": "C34", "title": "Re-running with the global DB gives the same verdict", "statement": "Solving a CNF again with -gdb after it has been solved reports the same verdict as the first run.", "quantifier": "every CNF and every earlier history of runs", "why_tests_cant": "all histories", "anchors": ["PatternSolver.py:solve_set", "DbAdaptor.py:gs_is_hash_solved"]}
{"id": "C35", "title": "Interrupted global-DB runs can be resumed", "statement": "After a -gdb run is killed at any point, running it again finishes with the correct verdict.", "quantifier": "every crash point and CNF", "why_tests_cant": "all crash points", "anchors": ["PatternSolver.py:get_children_from_gdb", "PatternSolver.py:process_nodes_queue"]}
{"id": "C36", "title": "Global-DB rows are sound", "statement": "Every row ever written to the global table links a body to the hashes of its two normalised branches, and a row is never changed except for its statistics.", "quantifier": "every history of runs on one table, with the same mode and sort options", "why_tests_cant": "all histories", "anchors": ["PatternSolver.py:save_parent_children", "DbAdaptor.py:gs_insert_row"]}
{"id": "C37", "title": "Concurrent workers sharing the global DB lose no node", "statement": "When several workers insert into the global table concurrently, every child of an inserted node is eventually inserted or pending in some worker's queue.", "quantifier": "every interleaving of the workers' steps", "why_tests_cant": "all interleavings", "anchors": ["PatternSolver.py:process_nodes_queue (lines 378-385)", "DbAdaptor.py:gs_insert_row"]}
{"id": "C38", "title": "The queue is a queue", "statement": "SuperQueue returns items in insertion order, exactly once; with unique_queue no item is returned twice; size and is_empty agree with the content.", "quantifier": "every sequence of insert/pop operations", "why_tests_cant": "all operation sequences", "anchors": ["SuperQueue.py:SuperQueue"]}
{"id": "C39", "title": "A failed worker's node is solved by the main process", "statement": "If a worker process cannot open its DB connection its node is put back in the main queue and the run finishes.", "quantifier": "every set of failing workers and completion order", "why_tests_cant": "all schedules", "anchors": ["PatternSolver.py:process_nodes_queue (lines 287-293, 415-453)"]}
{"id": "C40", "title": "The stored variable count is the number of variables", "statement": "The num_of_vars column of a global-table row is the number of distinct variables of its body.", "quantifier": "every normalised set", "why_tests_cant": "all sets", "anchors": ["PatternSolver.py:save_parent_children (lines 213-216)"]}
{"id": "C41", "title": "Trial-division helper finds a smallest factor", "statement": "tools/factorize.py returns the smallest odd factor >= 3 of an odd composite number, and reports primality exactly for odd primes.", "quantifier": "every odd x >= 3", "why_tests_cant": "all integers", "anchors": ["tools/factorize.py"]}
{"id": "C42", "title": "Multiplication end to end", "statement": "Multiplying a and b with -mult on a generated CNF wide enough reports a*b.", "quantifier": "every a, b > 1 that fit", "why_tests_cant": "all numbers", "anchors": ["Multiply.py", "PatternSolver.py:solve_set (lines 605-617)", "main.py:Main"]}
{"id": "C43", "title": "A failed database connection is not reported as a verdict", "statement": "When the global database connection fails, the run either reports an error or gives the right verdict; it never reports a satisfiable formula as NOT SATISFIABLE.", "quantifier": "every input formula and every configuration using the global database", "why_tests_cant": "ranges over all formulas and failure points", "anchors": ["PatternSolver.py:process_nodes_queue (lines 278-294)", "PatternSolver.py:solve_set"]}
{"id": "C44", "title": "Processes sharing an initially empty global table agree on the right verdict", "statement": "When several processes work on one formula with a shared, initially empty global table, then whatever their interleaving and however stale their reads: a process reports satisfiable only if the formula is, with a solution making every clause true; the processes together take a bounded number of passes and never raise; and when all have stopped, some process reports satisfiable exactly if the formula is satisfiable.", "quantifier": "every formula, every interleaving of passes and hand-overs, every number of processes, every stale read; options without -thief (verdict), without -gnm (progress, solution)", "why_tests_cant": "ranges over all schedules and formulas; insert races depend on timing", "anchors": ["PatternSolver.py:process_nodes_queue", "PatternSolver.py:save_node", "DbAdaptor.py:gs_insert_row", "SuperQueue.py"]}
{"id": "C46", "title": "The solution file of a satisfiable input satisfies it", "statement": "With -s, a run on a satisfiable input writes a solution file, and the variables it lists under T and F make every clause of the input true; a run on an unsatisfiable input writes none.", "quantifier": "every input text that can be read, every mode, number of workers and schedule", "why_tests_cant": "it must hold for every formula, including those whose variables were renamed many times on the way to the solution", "anchors": ["main.py:Main", "PatternSolver.py:format_solution", "PatternSolver.py:solve_set", "InputReader.py:get_cnf_set"]}
{"id": "C45", "title": "The drawing shows the node graph of the run and changes nothing else", "statement": "With -g a run ends, fails and reports exactly as without it. The drawing declares every recorded node once, its arrows are the recorded edges plus those to T and F, the arrows and labels are those of the formula of the node, T is drawn exactly when the answer is satisfiable, the red nodes are those entered more than once, and the printed statistics are those of the drawing.", "quantifier": "every input, mode, database setting and schedule (the content of the drawing: every run of one process)", "why_tests_cant": "it must hold for every formula and for every node and arrow of the graph of every run", "anchors": ["PatternSolver.py:process_nodes_queue", "PatternSolver.py:solve_set", "PatternSolver.py:draw_graph"]}
{"id": "C47", "title": "The figures kept in the global table are those of the node's own graph", "statement": "After a run with -gdb over a table with no entry for its nodes, the row of every node of the run holds the exact numbers of unique nodes, redundant nodes and redundant hits of the graph below that node. A later run on the same formula reports those same figures from the table.", "quantifier": "every formula and every run of one process over a table that does not know its nodes, followed by a run over the resulting table", "why_tests_cant": "it must hold for every formula, every node of its graph and every content of the table", "anchors": ["PatternSolver.py:save_in_global_db", "PatternSolver.py:process_set", "DbAdapter.py:gs_update_count", "PatternSolver.py:solve_set"]}
{"id": "C48", "title": "Constraint builders of the formula generator say what they are named after", "statement": "Each clause list produced by less_than, less_or_equal, greater_than, greater_or_equal, equal_to, loose_majority, loose_minority, exactly_half_ceil, exactly_half_floor and parity constraints is true under an assignment exactly when the number of true variables satisfies the named condition, also for bounds that are negative or above the number of variables.", "quantifier": "every list of variables, every integer bound, every assignment", "why_tests_cant": "it must hold for every number of variables, bound and assignment", "anchors": ["software/cnfgen/cnfformula/cnf.py:CNF.less_than", "software/cnfgen/cnfformula/cnf.py:CNF.equal_to_constraint", "software/cnfgen/cnfformula/cnf.py:CNF.parity_constraint", "software/cnfgen/cnfformula/cnf.py:CNF.loose_majority_constraint"]}
{"id": "C49", "title": "Mapping objects encode exactly the mappings with the requested attributes", "statement": "The clauses of a unary mapping are true under an assignment exactly when the relation of true variables is complete, functional, injective, surjective and nondecreasing as requested; the clauses of a binary mapping are true exactly when the numbers encoded by the bits are in range and injective, nondecreasing as requested.", "quantifier": "every domain, range, sparsity pattern, choice of attributes and assignment", "why_tests_cant": "it must hold for every size of domain and range and every assignment", "anchors": ["software/cnfgen/cnfformula/cnf.py:CNF.unary_mapping", "software/cnfgen/cnfformula/cnf.py:CNF.binary_mapping"]}
{"id": "C50", "title": "Pigeonhole formulas are unsatisfiable exactly when the pigeons do not fit", "statement": "The pigeonhole formula for m pigeons and n holes is satisfiable exactly if m <= n (functional and onto: m = n; onto only: also n = 0 or m > 0); the binary version exactly if m <= n; the graph version exactly if the bipartite graph has a matching covering the pigeons (with onto, also the holes).", "quantifier": "every number of pigeons and holes, every bipartite graph, every combination of flags", "why_tests_cant": "it must hold for every size; satisfiability is a statement about all assignments", "anchors": ["software/cnfgen/cnfformula/families/pigeonhole.py:PigeonholePrinciple", "software/cnfgen/cnfformula/families/pigeonhole.py:GraphPigeonholePrinciple", "software/cnfgen/cnfformula/families/pigeonhole.py:BinaryPigeonholePrinciple"]}
{"id": "C51", "title": "Ordering formulas are unsatisfiable unless a minimum is planted", "statement": "The ordering principle formula on n > 0 elements is unsatisfiable in every variant (total, smart, Knuth), and satisfiable once a minimum is planted; the graph version is unsatisfiable on every nonempty graph, and with a planted minimum satisfiable exactly if the graph is connected.", "quantifier": "every size, graph and combination of flags", "why_tests_cant": "it must hold for every size and graph; satisfiability is a statement about all assignments", "anchors": ["software/cnfgen/cnfformula/families/ordering.py:OrderingPrinciple", "software/cnfgen/cnfformula/families/ordering.py:GraphOrderingPrinciple"]}
{"id": "C52", "title": "Counting and perfect matching formulas are satisfiable exactly when a partition exists", "statement": "The counting principle formula for M elements in blocks of p is satisfiable exactly if p divides M; the perfect matching formula of a graph exactly if the graph has a perfect matching.", "quantifier": "every M and p, every graph", "why_tests_cant": "it must hold for every size and graph; satisfiability is a statement about all assignments", "anchors": ["software/cnfgen/cnfformula/families/counting.py:CountingPrinciple", "software/cnfgen/cnfformula/families/counting.py:PerfectMatchingPrinciple"]}
{"id": "C53", "title": "Tseitin formulas are satisfiable exactly when every component has even charge", "statement": "The Tseitin formula of a graph with given charges is satisfiable exactly if the charges of every connected component sum to an even number; with the default charge (the first vertex only) it is unsatisfiable on every nonempty graph.", "quantifier": "every graph and every list of charges", "why_tests_cant": "it must hold for every graph and charge; satisfiability is a statement about all assignments", "anchors": ["software/cnfgen/cnfformula/families/tseitin.py:TseitinFormula"]}
{"id": "C54", "title": "Coloring formulas are satisfiable exactly when the coloring exists", "statement": "The graph coloring formula is satisfiable exactly if the graph can be colored properly with the given colors. The even coloring formula is refused for a graph with a vertex of odd degree, and otherwise is satisfiable exactly if the edges can be split evenly at every vertex.", "quantifier": "every graph, every list of colors", "why_tests_cant": "it must hold for every graph; satisfiability is a statement about all assignments", "anchors": ["software/cnfgen/cnfformula/families/coloring.py:GraphColoringFormula", "software/cnfgen/cnfformula/families/coloring.py:EvenColoringFormula"]}
{"id": "C55", "title": "Formula transformations keep the meaning", "statement": "Each transformation (or, xor, majority, all equal, not all equal, if-then-else, exactly one, lifting, flip, variable compression) of a well-formed formula succeeds and gives a formula that is true under an assignment exactly when the original is true under the assignment that gives each variable the value of its gadget; so the result is satisfiable exactly if the original is (with enough copies).", "quantifier": "every well-formed formula, every rank, every injective naming of the variables, every assignment", "why_tests_cant": "it must hold for every formula, rank and assignment; satisfiability is a statement about all assignments", "anchors": ["software/cnfgen/cnfformula/transformations/substitutions.py:BaseSubstitution", "software/cnfgen/cnfformula/transformations/substitutions.py:XorSubstitution", "software/cnfgen/cnfformula/transformations/substitutions.py:FormulaLifting", "software/cnfgen/cnfformula/transformations/substitutions.py:VariableCompression"]}
{"id": "C56", "title": "Shuffling keeps satisfiability", "statement": "Shuffling a well-formed formula by any permutation of its variables, any permutation of its clauses and any choice of polarity flips gives a well-formed formula whose clauses are the original ones at the permuted places, true exactly when the original is under the flipped assignment; so satisfiability is preserved.", "quantifier": "every well-formed formula, every permutation of variables and clauses, every choice of flips", "why_tests_cant": "it must hold for every permutation and formula", "anchors": ["software/cnfgen/cnfformula/transformations/shuffle.py:Shuffle"]}
{"id": "C57", "title": "DIMACS files written by the generator are read back unchanged, by it and by the solver", "statement": "The DIMACS text written for a well-formed formula, with or without header and extra text, is standard DIMACS for exactly its clauses; the generator reads it back as the same clauses over as many variables with the printed header, and writing that again gives the same text. The NDP solver reads the file as the same formula if its clauses have one to three literals, and a whole solver run on it reports whether the generated formula is satisfiable.", "quantifier": "every well-formed formula, every header and extra text, every solver run", "why_tests_cant": "it must hold for every formula and every header text, and for every solver history", "anchors": ["software/cnfgen/cnfformula/cnf.py:CNF.dimacs", "software/cnfgen/cnfformula/utils/__init__.py:dimacs2compressed_clauses", "software/cnfgen/cnfformula/utils/__init__.py:dimacs2cnf", "InputReader.py"]}
{"id": "C58", "title": "A formula object gives back exactly the accepted clauses, after any history of calls", "statement": "After any sequence of add_variable, add_clause (strict or not) and add_clause_unsafe calls, including calls that raise, the object is well-formed, variable numbers never change, and its clauses are exactly those of the calls that did not raise, in order; a call raises exactly if its clause repeats a literal, contains opposite literals, or (strict/unsafe) has an unknown variable. Every formula returned by a family generator is well-formed.", "quantifier": "every history of calls, every family and every arguments", "why_tests_cant": "it must hold for every history of calls, including failing ones", "anchors": ["software/cnfgen/cnfformula/cnf.py:CNF.add_clause", "software/cnfgen/cnfformula/cnf.py:CNF.add_variable", "software/cnfgen/cnfformula/cnf.py:CNF.add_clause_unsafe"]}
{"id": "C59", "title": "Ramsey and Pythagorean formulas say what they claim", "statement": "The Ramsey formula for (s,k,n) is built and is satisfiable exactly when some graph on n vertices has neither s pairwise unconnected nor k pairwise connected vertices. The Pythagorean formula for n is satisfiable exactly when 1..n can be two-colored without a one-colored x²+y²=z².", "quantifier": "every s, k, n", "why_tests_cant": "it quantifies over all graphs/colorings of every size", "anchors": ["software/cnfgen/cnfformula/families/ramsey.py:RamseyLowerBoundFormula", "software/cnfgen/cnfformula/families/ramsey.py:PythagoreanTriples"]}
{"id": "C60", "title": "Clique-coloring formula", "statement": "The clique-coloring formula for (n,k,c) is built and is satisfiable exactly when a graph on n vertices can have both a k-clique and a proper c-coloring, i.e. when k ≤ n, k ≤ c (and there is a color if there is a vertex); for k = c+1 it is unsatisfiable.", "quantifier": "every n, k, c", "why_tests_cant": "all graphs, cliques and colorings of every size", "anchors": ["software/cnfgen/cnfformula/families/cliquecoloring.py:CliqueColoring"]}
{"id": "C61", "title": "Dominating set formula", "statement": "For every simple graph and bound d, both variants of the dominating set formula are built and are satisfiable exactly when the graph has a dominating set of at most d vertices.", "quantifier": "every simple graph, every d, both variants", "why_tests_cant": "all subsets of all graphs", "anchors": ["software/cnfgen/cnfformula/families/dominatingset.py:DominatingSet"]}
{"id": "C62", "title": "Subset cardinality formula", "statement": "The subset cardinality formula of a bipartite graph is built and is satisfiable exactly when edges can be chosen so that on every left vertex at least half (rounded up) and on every right vertex at most half (rounded down) are chosen (with equalities: exactly); that is exactly when every vertex has even degree.", "quantifier": "every bipartite graph, both variants", "why_tests_cant": "all edge choices in all graphs", "anchors": ["software/cnfgen/cnfformula/families/subsetcardinality.py:SubsetCardinalityFormula"]}
{"id": "C63", "title": "Graph isomorphism and automorphism formulas", "statement": "The isomorphism formula is satisfiable exactly when the two graphs are isomorphic; the automorphism formula exactly when the graph has an automorphism other than the identity.", "quantifier": "every pair of simple graphs", "why_tests_cant": "all bijections between all graphs", "anchors": ["software/cnfgen/cnfformula/families/graphisomorphism.py:GraphIsomorphism", "software/cnfgen/cnfformula/families/graphisomorphism.py:GraphAutomorphism"]}
{"id": "C64", "title": "Pebbling and stone formulas", "statement": "Pebbling, stone and sparse stone formulas refuse a graph with a cycle (or bad stone arguments) with ValueError; for an acyclic graph they are built and are unsatisfiable as soon as there is a vertex, whatever the number of stones or the allowed stones. The built-in pyramids and binary trees are acyclic with the right number of vertices.", "quantifier": "every directed graph, every number of stones, every bipartite graph of stones, every height", "why_tests_cant": "induction over all acyclic graphs", "anchors": ["software/cnfgen/cnfformula/families/pebbling.py:PebblingFormula", "software/cnfgen/cnfformula/families/pebbling.py:StoneFormula", "software/cnfgen/cnfformula/families/pebbling.py:SparseStoneFormula", "software/cnfgen/cnfformula/graphs.py"]}
{"id": "C65", "title": "Subgraph and clique formulas", "statement": "The subgraph formula with one template is satisfiable exactly when the graph has an induced copy of the template; the clique formulas (unary and binary) exactly when the graph has k pairwise connected vertices, whatever the vertex order.", "quantifier": "every simple graph, template, k, vertex order", "why_tests_cant": "all vertex maps of all graphs", "anchors": ["software/cnfgen/cnfformula/families/subgraph.py:SubgraphFormula", "software/cnfgen/cnfformula/families/subgraph.py:CliqueFormula", "software/cnfgen/cnfformula/families/subgraph.py:BinaryCliqueFormula"]}
{"id": "C66", "title": "Subgraph formulas with several templates, Ramsey witness", "statement": "The subgraph formula with several templates is satisfiable exactly when the graph contains an induced copy of at least one of them; the Ramsey witness formula for (k,s) is unsatisfiable exactly when the graph has no k-clique and no stable set of size s.", "quantifier": "every simple graph, list of templates, k, s", "why_tests_cant": "all vertex maps of all graphs", "anchors": ["software/cnfgen/cnfformula/families/subgraph.py:SubgraphFormula", "software/cnfgen/cnfformula/families/subgraph.py:RamseyWitnessFormula"]}
{"id": "C67", "title": "The models of each generated formula are exactly the objects it is about", "statement": "For every family generator that returns a formula, the names of its variables are exactly the documented ones, and an assignment makes all clauses true exactly when the relation it describes has the family's properties: e.g. a pigeonhole relation, a total order without a least element, a partition in blocks, a perfect matching, a parity of charges, a coloring, a graph without a homogeneous set, a clique with a coloring, a numbered dominating set, an isomorphism, a pebbling, a stone placement, a placed template.", "quantifier": "every argument of every generator, every assignment of the variables", "why_tests_cant": "all assignments of formulas of every size; satisfiability alone says nothing about unsatisfiable families", "anchors": ["software/cnfgen/cnfformula/families/pigeonhole.py", "software/cnfgen/cnfformula/families/ordering.py", "software/cnfgen/cnfformula/families/counting.py", "software/cnfgen/cnfformula/families/tseitin.py", "software/cnfgen/cnfformula/families/coloring.py", "software/cnfgen/cnfformula/families/ramsey.py", "software/cnfgen/cnfformula/families/cliquecoloring.py", "software/cnfgen/cnfformula/families/dominatingset.py", "software/cnfgen/cnfformula/families/subsetcardinality.py", "software/cnfgen/cnfformula/families/graphisomorphism.py", "software/cnfgen/cnfformula/families/pebbling.py", "software/cnfgen/cnfformula/families/subgraph.py"]}
{"id": "C68", "title": "Random k-CNFs have the promised shape whatever the random choices", "statement": "RandomKCNF(k,n,m,planted) raises ValueError exactly when a parameter is negative, k>n or there are fewer than m clauses of k variables over x_1..x_n that all planted assignments make true (without planted assignments there are 2^k*C(n,k) clauses). Otherwise the formula has the variables x_1..x_n, exactly m different clauses, each of k different variables, and every planted assignment satisfies it; every set of m possible clauses is the result of some random choices.", "quantifier": "all k,n,m, all planted partial assignments, all results of the random generator and of the iteration over the set", "why_tests_cant": "the result is random: a test sees one seed, the claim is about all of them, including the rare fallback to dense sampling", "anchors": ["software/cnfgen/cnfformula/families/randomformulas.py RandomKCNF sample_clauses sample_clauses_dense all_clauses clause_satisfied"]}
{"id": "C69", "title": "Simple formulas", "statement": "The formulas or, and, empty and emptyclause of cnfgen are the disjunction and the conjunction of P positive and N negative literals, the formula with no clause and the contradiction.", "quantifier": "all P and N, all assignments", "why_tests_cant": "all sizes and assignments", "anchors": ["software/cnfgen/cnfformula/families/simple.py"]}
{"id": "C70", "title": "The generator's DIMACS reader returns what the file says or refuses it", "statement": "A DIMACS text (clauses spread over lines in any way, comments anywhere) is accepted if it has one problem line, its numbers end with 0 and their zeros are as many as the problem line announces; the result has the announced number of variables and as clauses the numbers cut at the zeros. Whatever is accepted has these clauses and this count. Every other text is refused with ValueError, except that a text ending in a bare 'c' raises IndexError. Numbers beyond the announced variables are not refused, but the object then fails every later use.", "quantifier": "every text", "why_tests_cant": "all texts: all ways to spread clauses, comments and problem lines over lines", "anchors": ["software/cnfgen/cnfformula/utils/__init__.py:dimacs2compressed_clauses", "software/cnfgen/cnfformula/utils/__init__.py:dimacs2cnf"]}
{"id": "C71", "title": "Reading a kthlist graph file gives the graph listed, or ValueError", "statement": "A text is accepted as a simple or directed graph exactly when, apart from comments and blank lines, it is the number of vertices followed by lines 'target : sources 0' with all vertices in range; the graph read has these vertices and exactly the listed edges. Asked for an acyclic graph, it is accepted exactly when the listed edges have no cycle and refused with ValueError (never an AssertionError) otherwise. Asked for a bipartite graph, it is refused or returned with every vertex on a side and every edge (of a line that does not list its own vertex) crossing; if no vertex is both a target and a source, the targets are exactly the left side. Some bipartite graphs are refused, and a line listing its own vertex gives edges inside a side.", "quantifier": "every text and every graph type", "why_tests_cant": "all texts, all numbers of vertices and all adjacency lists in every order; acyclicity of arbitrary graphs", "anchors": ["software/cnfgen/cnfformula/graphs.py:_read_graph_kthlist_format", "software/cnfgen/cnfformula/graphs.py:readGraph", "software/cnfgen/cnfformula/graphs.py:is_dag"]}
{"id": "C72", "title": "A graph written as kthlist and read again is the same graph", "statement": "Any simple, directed, acyclic or bipartite graph (with a bipartition its edges respect), with any vertex names, written as kthlist and read again has as many vertices and exactly the same edges between the vertices' numbers, and the same sides; a graph with a cycle is refused as acyclic. A one-line name comes back followed by a line break and is then stable. For names of several lines (as obtained from files with two comments) this fails: the file written is refused.", "quantifier": "every graph, every vertex enumeration", "why_tests_cant": "all finite graphs with arbitrary vertex names and orders", "anchors": ["software/cnfgen/cnfformula/graphs.py:_write_graph_kthlist_format", "software/cnfgen/cnfformula/graphs.py:_read_graph_kthlist_format", "software/cnfgen/cnfformula/graphs.py:enumerate_vertices"]}
{"id": "C73", "title": "Reading and writing graphs in the dimacs format", "statement": "A text with one line 'p edge n m' (n not negative) and m lines 'e v w' is read as the graph with exactly these edges, vertices 1..n and the ends of the edges (which may exceed n); every other text is refused with ValueError. Acyclicity is checked when asked for. A graph with a one-line name, written and read again, is the same graph on its vertices' numbers; with a longer name it may be refused.", "quantifier": "every text and every graph", "why_tests_cant": "all texts; all finite graphs with arbitrary vertex names", "anchors": ["software/cnfgen/cnfformula/graphs.py:_read_graph_dimacs_format", "software/cnfgen/cnfformula/graphs.py:_write_graph_dimacs_format", "software/cnfgen/cnfformula/graphs.py:readGraph"]}
{"id": "C74", "title": "Random and shifted bipartite graphs have the shape asked for", "statement": "Negative sizes or degrees are refused with ValueError. A left regular graph has the sides asked for, and each left vertex is joined to exactly min(r,d) right vertices; every such graph can be drawn. A shift graph joins each left vertex to the pattern shifted once per vertex, and is refused unless the pattern is in 1..K. A regular graph is returned with all edges crossing, at most d at each left and l*d/r at each right vertex, no edge twice, and regular if it has l*d edges; every regular graph can be drawn; l*d not divisible by r is ValueError, r=0 is ZeroDivisionError. Regularity itself fails: unlucky draws give a graph with fewer edges.", "quantifier": "all sizes, degrees, patterns and all random draws", "why_tests_cant": "random draws: a test sees a few of them; the faulty outcome needs a rare sequence of draws", "anchors": ["software/cnfgen/cnfformula/graphs.py:bipartite_random_left_regular", "software/cnfgen/cnfformula/graphs.py:bipartite_shift", "software/cnfgen/cnfformula/graphs.py:bipartite_random_regular"]}
{"id": "C75", "title": "Adding random edges and planting cliques changes exactly what was asked", "statement": "Sampling m missing edges gives ValueError exactly when m is negative or fewer are missing, otherwise m different missing edges (joining the two sides if the graph has sides), for every sequence of draws, except that RuntimeError is possible while fewer than half of the edges would be used; every choice is possible. --addedges k then keeps vertices, sides and old edges and adds exactly k. --plantclique k and --plantbiclique l r refuse sizes larger than the graph and otherwise add exactly the edges of the planted clique. On graphs with loops the number of missing edges is computed wrongly.", "quantifier": "every simple graph without loops, every m, every sequence of random draws", "why_tests_cant": "random draws and all graphs; a test sees a few draws", "anchors": ["software/cnfgen/cnfformula/graphs.py:sample_missing_edges", "software/cnfgen/cnfformula/cmdline.py:SimpleGraphHelper.obtain_graph", "software/cnfgen/cnfformula/cmdline.py:BipartiteGraphHelper.obtain_graph"]}
{"id": "C76", "title": "A failing database statement never makes a -gdb run wrong", "statement": "In a run that uses the global table, database statements may fail at any time (lost connection, full disk, missing table) and processes may be killed. Whatever fails and whatever dies: 'satisfiable' is reported only for satisfiable formulas, a reported non-empty assignment satisfies the formula, every row left in the table is right and no earlier row changes, and the processes take finitely many steps; failing reads on an empty table change nothing. A failing INSERT is taken for 'another process has this node': its children are dropped silently, so that a satisfiable formula can be reported as not satisfiable.", "quantifier": "every formula, every table with right rows, every choice of failing statements in every pass, every interleaving of processes, every death", "why_tests_cant": "fault sequences times schedules; tests do not inject database errors", "anchors": ["DbAdaptor.py:DbAdapter.gs_insert_row", "DbAdaptor.py:DbAdapter.gs_does_hash_exist", "DbAdaptor.py:DbAdapter.gs_get_children", "DbAdaptor.py:DbAdapter.gs_get_set_data", "PatternSolver.py:PatternSolver.process_nodes_queue", "PatternSolver.py:PatternSolver.save_parent_children"]}
{"id": "C77", "title": "Asking an external SAT solver gives the solver's verdict and its witness", "statement": "is_satisfiable(F, cmd, sameas) writes F as DIMACS, runs an external solver, and returns (False, None) if the solver says UNSAT and (True, w) if it says SAT, where w is a dictionary of variables of F such that every assignment extending it satisfies F. Unknown interface names are refused with ValueError, unsupported or missing solvers with RuntimeError. This holds for the minisat interface; for every other supported solver, whatever it answers and for every formula, the call ends in RuntimeError (the solver's output is bytes and is compared with str), and without a command the first installed solver decides which of the two happens.", "quantifier": "every formula, every command, every solver behaviour (any bytes on standard output, any answer file), every set of installed solvers", "why_tests_cant": "the solver is an external program with arbitrary output; tests use one installed solver and a few formulas", "anchors": ["software/cnfgen/cnfformula/utils/solver.py:is_satisfiable", "software/cnfgen/cnfformula/utils/solver.py:_satsolve_filein_fileout", "software/cnfgen/cnfformula/utils/solver.py:_satsolve_stdin_stdout", "software/cnfgen/cnfformula/utils/solver.py:_satsolve_filein_stdout", "software/cnfgen/cnfformula/utils/solver.py:supported_satsolvers", "software/cnfgen/cnfformula/cnf.py:CNF.is_satisfiable"]}
{"id": "C78", "title": "The formula generator's command line tools print DIMACS for an equivalent problem", "statement": "For every accepted DIMACS text with literals in range and every transformation (for cnfgen: every properly generated formula and every chain of -T transformations), the text printed on standard output is a DIMACS file in the layout the solver and the tools' own reader accept; its formula can be satisfied only if the given one can, and exactly then unless the chain has a compression or a substitution over too few variables. Only a compression over a graph of the wrong size is refused. Literals out of range end with a failed assertion (all transformations but shuffling); a missing transformation, a binary output file and an input file option never give an output. A ValueError or AttributeError of the generator is reported, any other error is not caught. The solver's verdict on the printed text is right.", "quantifier": "all texts, formulas, transformations, chain lengths, random choices, verbosity", "why_tests_cant": "needs all formulas, all chains of transformations and all random draws", "anchors": ["software/cnfgen/cnfformula/cnfgen.py", "software/cnfgen/cnfformula/utils/dimacstransform.py"]}
{"id": "C79", "title": "Piping through dimacstransform is the same as a further -T", "statement": "The command line of cnfgen is cut at -T into the unique pieces without -T. If cnfgen with some transformations prints a text, then cnfgen with one more transformation and dimacstransform with that transformation on the text either both refuse or print the same clauses over as many variables; with -q both print the same text.", "quantifier": "all command lines, generators, transformations, random choices", "why_tests_cant": "needs all formulas: names differ on the two ways, only the numbers agree", "anchors": ["software/cnfgen/cnfformula/cnfgen.py:187-265", "software/cnfgen/cnfformula/utils/dimacstransform.py"]}
{"id": "C80", "title": "cnfshuffle and kthlist2pebbling", "statement": "cnfshuffle on an accepted DIMACS text in range prints a DIMACS file with as many variables and clauses, satisfiable exactly if the given one is; (fails for literals out of range, which alias other literals). kthlist2pebbling on a predecessor list raises ValueError for a cycle, and otherwise prints, for every transformation that fits, a DIMACS file whose formula cannot be satisfied if there is a vertex.", "quantifier": "all texts, random choices, options, transformations", "why_tests_cant": "needs all graphs, formulas and draws", "anchors": ["software/cnfgen/cnfformula/utils/cnfshuffle.py", "software/cnfgen/cnfformula/utils/kthlist2pebbling.py"]}
{"id": "C81", "title": "Numbering of a transformed formula", "statement": "In the formula made by a substitution of block width k, the variables of the block of variable i are the numbers k(i-1)+1..ki, in the documented order (selectors first in a lifting), and an assignment satisfies it exactly if the given formula is satisfied by the values computed from the blocks (or, exclusive or, majority, equality, exactly one, if-then-else, selected one).", "quantifier": "all proper formulas, all ranks, all assignments", "why_tests_cant": "needs all formulas and ranks; the numbers come from the order in which names first occur in the generated clauses", "anchors": ["software/cnfgen/cnfformula/transformations/substitutions.py", "software/cnfgen/cnfformula/utils/dimacstransform.py"]}
{"id": "C82", "title": "Each constraint of a formula family is in the formula, clause by clause", "statement": "Every formula family generator returns exactly the clauses of the constraints of its documentation, separately: for each constraint (this vertex is pebbled when its predecessors are; no two pigeons are in this hole; this vertex has odd charge; these two vertices are not mapped to this non-edge ...) there are clauses in the formula that are true under an assignment exactly if the constraint is, and every clause follows from a single constraint. This says what the formula is also for the many families that are never satisfiable, where 'the models are exactly ...' is empty.", "quantifier": "every family (pigeonhole, graph pigeonhole, binary pigeonhole, counting, perfect matching, Tseitin, coloring, even coloring, ordering, Ramsey, Pythagorean triples, clique and coloring, subset cardinality, isomorphism, automorphism, dominating set, subgraph, binary clique, pebbling, stone, sparse stone), every graph, every size, every option, every assignment", "why_tests_cant": "infinitely many graphs and sizes, and for unsatisfiable formulas no solver run can tell a right formula from one with a wrong or missing clause", "anchors": ["software/cnfgen/cnfformula/families/cliquecoloring.py", "software/cnfgen/cnfformula/families/coloring.py", "software/cnfgen/cnfformula/families/counting.py", "software/cnfgen/cnfformula/families/dominatingset.py", "software/cnfgen/cnfformula/families/graphisomorphism.py", "software/cnfgen/cnfformula/families/ordering.py", "software/cnfgen/cnfformula/families/pebbling.py", "software/cnfgen/cnfformula/families/pigeonhole.py", "software/cnfgen/cnfformula/families/ramsey.py", "software/cnfgen/cnfformula/families/subgraph.py", "software/cnfgen/cnfformula/families/subsetcardinality.py", "software/cnfgen/cnfformula/families/tseitin.py"]}
{"id": "C83", "title": "Computing the statistics does not lose the verdict", "statement": "A run of the solver with statistics ends as it would on a machine with an unbounded call stack, with the same verdict, solution, graph and figures, whatever the size of the formula. (As it stands the statistics are computed by recursion over the node graph before anything is reported, so on deep graphs a run that has found the solution ends with an error and reports nothing.)", "quantifier": "every formula, every mode and option, every schedule, every depth of the call stack", "why_tests_cant": "for every fixed limit the formulas that stay below it are tested easily; whether a graph of some formula is deeper than the limit depends on all formulas, and the depth that is needed is a statement about all paths of all graphs", "anchors": ["PatternSolver.py:231-257", "PatternSolver.py:538-550", "main.py:Main"]}
{"id": "C84", "title": "Every generator sub-command prints the formula it is documented to print", "statement": "For each sub-command of cnfgen and every choice of its options: either a message is printed because what is asked for does not exist (no regular graph of that degree, not a graph file, a clique larger than the graph, no room for the edges to add, too few clauses, ...), or a DIMACS file is printed whose formula is satisfiable exactly if the stated combinatorial fact holds of the numbers given or of the graph generated or read, with the clique planted and the edges added that were ordered; further -T transformations keep this. No other error ends a run, except that adding random edges may give up.", "quantifier": "every sub-command (php, bphp, op, gop, parity, matching, count, tseitin, kcolor, ec, ram, ptn, cliquecoloring, domset, giso, gauto, subgraph, kclique, kcliquebin, ramlb, randkcnf, or, and, empty, emptyclause, peb, stone), every number, every graph source, every outcome of the random choices, every list of transformations", "why_tests_cant": "the options, graphs, random outcomes and transformations range over infinite sets, and the claim joins the graph generator, the formula generator, the transformations and the printer", "anchors": ["software/cnfgen/cnfformula/families/*.py:build_cnf", "software/cnfgen/cnfformula/cmdline.py:SimpleGraphHelper.obtain_graph", "software/cnfgen/cnfformula/cnfgen.py:command_line_utility"]}
{"id": "C85", "title": "Generator piped into the solver decides the combinatorial question", "statement": "The output of cnfgen kcolor 3, randkcnf with k up to 3, peb on trees and pyramids, ptn, and tseitin on graphs of degree at most 3, given to the solver as a DIMACS file, is read without error and the verdict SAT is given exactly if the graph is 3-colorable, the clauses drawn are satisfiable, never, the numbers can be 2-colored without a monochromatic Pythagorean triple, and every component has an even number of odd charges, respectively.", "quantifier": "every graph, every number, all random choices, all solver modes and schedules without hash collisions", "why_tests_cant": "it joins two programs: all instances of the families, all search orders of the solver; tests sample a few small graphs", "anchors": ["software/cnfgen/cnfformula/families/coloring.py", "software/cnfgen/cnfformula/families/randomformulas.py", "software/cnfgen/cnfformula/families/tseitin.py", "InputReader.py", "PatternSolver.py:PatternSolver.process_nodes_queue", "main.py:Main"]}
{"id": "C86", "title": "cnfgen on bipartite graphs, end to end: gphp, subsetcard, stonesparse", "statement": "For every command line `cnfgen gphp|subsetcard|stonesparse <options>` and every outcome of the random choices, the program either prints an error message (exactly when the options describe no bipartite graph, the planted biclique is larger than a side, there is no room for the edges to add, or the left side has another size than the DAG) or prints a DIMACS file: the bipartite graph has the sides and edges the options say, and the formula printed is satisfiable exactly if the pigeons can be seated along the edges (gphp), the edges can be chosen as documented (subsetcard), or never (stonesparse). Only --addedges (RuntimeError) and --bregular (RecursionError) can end otherwise.", "quantifier": "all options, all bipartite graphs drawn by networkx, all random samples, all kthlist texts in the documented form, all transformations that cannot be refused", "why_tests_cant": "the graphs and the random choices are unbounded; satisfiability of the formula printed has to be related to the graph", "anchors": ["software/cnfgen/cnfformula/cmdline.py:BipartiteGraphHelper.obtain_graph", "software/cnfgen/cnfformula/families/pigeonhole.py:GPHPCmdHelper", "software/cnfgen/cnfformula/families/subsetcardinality.py:SCCmdHelper", "software/cnfgen/cnfformula/families/pebbling.py:SparseStoneCmdHelper"]}
{"id": "C87", "title": "The formula of every cnfgen sub-command has exactly the documented solutions", "statement": "For every sub-command of cnfgen on the graphs, DAGs and numbers it accepts, with any values of its flags (functional/onto, total/smart/plant/knuth, charge, alternative, ...): if a formula is printed, there is a numbering of the documented variable names under which the names are exactly those the documentation lists and an assignment makes every printed clause true exactly when it is a solution in the documented sense (a pigeon assignment with the requested side conditions, a linear order with the requested axioms, a coloring, a clique placement, ...).", "quantifier": "all sub-commands, arguments, flags, random choices, graphs on standard input and all assignments to the variables", "why_tests_cant": "there are infinitely many arguments and graphs, and the claim is about each of the 2^n assignments of each formula; equisatisfiability tests do not notice a swapped flag", "anchors": ["cnfgen/cnfformula/cnfgen.py", "cnfgen/cnfformula/families/*.py: build_cnf", "cnfgen/cnfformula/graphs.py"]}
{"id": "C88", "title": "The LaTeX output of a formula shows all its clauses in order and loses nothing", "statement": "For every formula whose variables have strings as names: the LaTeX text has one row for each clause, in order, with its literals in order (positive: the name in braces; negative: the name with a bar over the part before the first underscore), an empty clause as a box, an empty formula as `top`; in a full document the numbers of variables and clauses are stated and a page is broken after every 40 rows. Two formulas over names without blanks and line breaks that give the same text with the same header have the same clauses. A formula with numbered variables and a negative literal makes the call raise an AttributeError.", "quantifier": "all formulas, headers, extra texts, and both document modes", "why_tests_cant": "the claim that no two formulas have the same text is about all pairs of formulas; the page breaks depend on the number of clauses modulo 40", "anchors": ["cnfgen/cnfformula/cnf.py: CNF.latex"]}
{"id": "C89", "title": "Graph files: format choice, the matrix format, and what is written is read back", "statement": "readGraph and writeGraph with a file and a type of graph: if the format is left open it is the extension of the file name if that is a supported format for the type, otherwise ValueError; with a supported format the text is read by that format's rules and the checks of the type (acyclic, two labelled sides) are applied. A simple or directed graph written to a file named *.kthlist or *.dimacs and read back is the same graph with numbered vertices. A matrix shows the sizes of the sides and exactly the edges, and determines them. Documented: wrong types and formats raise ValueError, and matrices can be read back; both are false of the code (TypeError, AttributeError).", "quantifier": "all graphs, texts, file names, types and formats", "why_tests_cant": "file names and graphs are unbounded; that a matrix determines the graph is about all pairs of graphs", "anchors": ["cnfgen/cnfformula/graphs.py: readGraph", "cnfgen/cnfformula/graphs.py: writeGraph", "cnfgen/cnfformula/graphs.py: _process_graph_io_arguments", "cnfgen/cnfformula/graphs.py: _write_graph_matrix_format", "cnfgen/cnfformula/graphs.py: _read_graph_matrix_format"]}
{"id": "C90", "title": "The program shows the verdict it found; exit status and solution file are what the options say", "statement": "Running main.py with options that argparse accepts: a negative -t ends with status 3, -gnm without -gdb and -mult with a number below 2 end with status 2, and nothing is solved or written then; every other run that ends has status 0. The verdict of a readable input (and, if satisfiable, the solution) is shown on the terminal; with -qn the number of nodes is all that is shown. With -s exactly the satisfiable inputs get a file, called <input without extension>_<mode>.sol, which never replaces the input and differs between modes.", "quantifier": "all option combinations argparse accepts, all input files (names and texts), all formulas, environments and global tables", "why_tests_cant": "Tests run a few option combinations and look at the output of one or two formulas; whether the verdict is visible depends on the log level for every option combination, and file names on every path", "anchors": ["main.py:Main", "main.py:__main__", "configs.py:logger", "PatternSolver.py:solve_set"]}
{"id": "C91", "title": "Graph options of cnfgen: what is accepted, and that what is accepted can be built", "statement": "An option of cnfgen that describes a graph (--gnp, --gnm, --gnd, --grid, --torus, --complete, --empty, --bp, --bm, --bd, --bregular, --bshift, --bcomplete, --plantclique, --plantbiclique, --addedges) is accepted exactly if its values are in the documented range: positive integers; a probability between 0 and 1; at most l*r edges; a left degree of at most r, with r dividing l*d for regular graphs; different shifts between 1 and M. Everything else is refused with a message about the usage. With accepted values the generator raises no ValueError, and the graph has the sides and degrees asked for.", "quantifier": "all strings given as values of these options, all results of float(), all draws of the random choices", "why_tests_cant": "Tests try a few values on each side of the boundaries; the claim is about every string and about every graph that every sequence of random draws leads to", "anchors": ["software/cnfgen/cnfformula/cmdline.py:positive_int", "software/cnfgen/cnfformula/cmdline.py:SimpleGraphHelper.setup_command_line", "software/cnfgen/cnfformula/cmdline.py:BipartiteGraphHelper.setup_command_line", "software/cnfgen/cnfformula/cmdline.py:BipartiteGraphHelper.obtain_graph", "software/cnfgen/cnfformula/graphs.py:bipartite_shift"]}
{"id": "C92", "title": "One global table per mode, over the whole life of the data base", "statement": "Over every history of -gdb runs (any modes, formulas and other options; ended, killed at any moment; one process or several) and of deletions and creations of tables with the scripts: every table belongs to one mode and every row in it is right in that mode; a run touches no table of another mode; no row is lost unless its table is deleted; a run of one process that finishes on an unsolved root gives the right verdict; delete_gdb.py can delete the table of every mode and nothing else, and the run after a deletion is like a run without the global table; a run reports the same statistics whatever earlier runs with other sort options left in the table.", "quantifier": "all histories of the data base, all formulas, options, interleavings and kill points, all arguments of delete_gdb.py", "why_tests_cant": "A test sees one history; the claim is about every sequence of runs, kills, deletions and creations", "anchors": ["PatternSolver.py:PatternSolver.__init__", "PatternSolver.py:solve_set", "DbAdaptor.py:gs_create_table", "DbAdaptor.py:gs_drop_table", "DbAdaptor.py:gs_drop_all", "delete_gdb.py", "tools/create_global_table.py"]}
{"id": "C93", "title": "Negative numbers on the command line of cnfgen", "statement": "The numeric arguments of the cnfgen sub-commands are parsed with type=int and may be negative. For all values: a negative part size (count), forbidden-set size (ram) or any negative number of randkcnf is refused with a message; every other negative number counts as 0, and the tool prints a message or the DIMACS file the documentation promises for those numbers. With networkx >= 2.0 (not the versions required) op, kclique and ramlb with a negative number end in a traceback instead.", "quantifier": "every sub-command, all integers as its numbers, all random choices, all transformations", "why_tests_cant": "the integers are unbounded, and the claim composes generators, transformations and printing; tests use small positive numbers", "anchors": ["software/cnfgen/cnfformula/families/pigeonhole.py: PHPCmdHelper.build_cnf, BPHPCmdHelper.build_cnf", "software/cnfgen/cnfformula/families/counting.py: CountingPrinciple", "software/cnfgen/cnfformula/families/ramsey.py: RamseyLowerBoundFormula", "software/cnfgen/cnfformula/families/subgraph.py: CliqueFormula, RamseyWitnessFormula", "software/cnfgen/cnfformula/cnfgen.py: command_line_utility"]}
{"id": "C94", "title": "The comments of a printed formula say where it comes from, and every documented output format works", "statement": "With comments on, the file `cnfgen` prints begins with these comment lines and has no others: one title per transformation, the last applied on top, each followed by an empty one; the header of the formula; `COMMAND LINE: cnfgen` with the arguments; an empty one. With `-q` it has no comment. Different formulas of the number-only families have different headers. With `-of latex` the formula is printed in LaTeX.", "quantifier": "every generator result with a proper formula, every header without stray line breaks, every chain of transformations (any length), every command line; every pair of number-only commands; every command line with `-of latex`", "why_tests_cant": "Chains of transformations and arguments are unbounded; the LaTeX branch fails for every input in Python 3, which a test that never selects it does not see.", "anchors": ["software/cnfgen/cnfformula/cnfgen.py: command_line_utility, search_cmdline_input_file", "software/cnfgen/cnfformula/cnf.py: _dimacs_dump_clauses", "software/cnfgen/cnfformula/transformations/*.py", "software/cnfgen/cnfformula/families/*.py: headers"]}
{"id": "C95", "title": "The factors can be read off a solution of a generated multiplier formula with the help of its comments", "statement": "For every number N, adder and multiplier it accepts, the generator prints a DIMACS file whose comments name N, the literals of the product and of the two factors (most significant first), and whose `p` line gives a bound of the variables and the number of clauses. Under every satisfying assignment the two listed factors multiply to N and the listed output is N; every pair of factors that fits the listed lengths is read from some satisfying assignment. Other arguments are refused.", "quantifier": "every number N, adder and multiplier; every assignment; every pair of factors; every argument list", "why_tests_cant": "N and the assignments are unbounded; a test of a few numbers does not compare comments with clauses, and misses that 2 and 3 are wrong.", "anchors": ["tools/sabry_cnf_gen.hs: main, sym_multiplier, assert_n, int2bits, runCircuit"]}
{"id": "C96", "title": "The words of a cnfgen command line are understood as documented, and lead to the formula asked for", "statement": "For the families over numbers (php, bphp, op, parity, count, ram, ptn, cliquecoloring, randkcnf, or, and, empty, emptyclause): every documented command line (general options, family, numbers and flags in any order, long and short names, negative numbers included), followed by any chain of documented transformations with or without their number, is refused exactly if a number is bad or there is no such formula, and otherwise prints a DIMACS formula that can be satisfied exactly if the formula asked for can. Conversely, an accepted command line of a family asks for what it gets: the words that are numbers are the numbers in their order, every other word stands for a flag of the family (an abbreviation or combined letters), no flag is set that is not written, and at most one of --total, --smart, --knuth2, --knuth3. Too few or too many numbers, or no family at all, print a message and no formula. After the name of a family exactly the words are accepted that are its flags and as many whole numbers as the formula needs, and after -T exactly the words that name a transformation; with any other words no formula is printed.", "quantifier": "every list of general options, family, items and transformations; every word of the command line other than `--`", "why_tests_cant": "Command lines are unbounded lists of words; abbreviations, combined letters, and words that look like negative numbers make the interesting cases too many to list.", "anchors": ["software/cnfgen/cnfformula/cnfgen.py: setup_command_line_args, signal_handler, command_line_utility", "software/cnfgen/cnfformula/families/pigeonhole.py: PHPCmdHelper, BPHPCmdHelper", "software/cnfgen/cnfformula/families/ordering.py: OPCmdHelper", "software/cnfgen/cnfformula/transformations/shuffle.py: Shuffle.setup_command_line", "software/cnfgen/cnfformula/transformations/substitutions.py"]}
{"id": "C97", "title": "The command lines of cnfgen's families over graphs lead to the formulas they ask for", "statement": "Every documented command line of gop, matching, tseitin, kcolor, ec, domset, giso, gauto, subgraph, kclique, kcliquebin and ramlb - general options, the name, then the numbers and the options for the graphs (with one or two values each, those of a second graph with a suffix) in any order - is understood as documented, and cnfgen prints a DIMACS formula that can be satisfied exactly if the documented question about the graph has the answer yes, or refuses because there is no such graph or formula. Two ways to give one graph, a missing graph or a wrong number of numbers are refused. A number after --grid or --torus is taken for a dimension.", "quantifier": "every family over simple graphs, every list of numbers and of its options in any order and any number, every standard input, every seed and random choice networkx may make, every list of transformations", "why_tests_cant": "Tests try a few command lines; the options interact (values that follow an option, suffixes, abbreviations, exclusive groups, positional numbers between them), and the graph is random", "anchors": ["software/cnfgen/cnfformula/cmdline.py:SimpleGraphHelper.setup_command_line", "software/cnfgen/cnfformula/cmdline.py:SimpleGraphHelper.obtain_graph", "software/cnfgen/cnfformula/families/*.py:setup_command_line", "software/cnfgen/cnfformula/cnfgen.py:command_line_utility"]}
{"id": "C98", "title": "Command lines of the families over bipartite and directed acyclic graphs are understood as documented", "statement": "Every command line of gphp, subsetcard, stonesparse, peb or stone made of the documented options - the ways to give the bipartite graph (--input, --bp, --bm, --bd, --bregular, --bshift, --bcomplete, with the suffix _mapping for stonesparse), --plantbiclique, --addedges, --graphformat kthlist, --tree, --pyramid, --functional, --onto, --equal - in any order leads to exactly the formula asked for: the last value of an option counts, two different ways to give a graph, a missing graph, a missing or superfluous number or a value outside its documented range give no formula, and all other sub-commands are treated as before. With the transformations behind it, cnfgen prints a DIMACS formula that can be satisfied exactly if the one asked for can (never for peb and stone).", "quantifier": "all command lines built from documented options in any order and number, all values, all random choices allowed to networkx and random.sample, all chains of transformations", "why_tests_cant": "The set of command lines is infinite, and the order of the options, repeated options, abbreviations and the greedy --bshift interact with each other", "anchors": ["software/cnfgen/cnfformula/cmdline.py:DirectedAcyclicGraphHelper", "software/cnfgen/cnfformula/cmdline.py:BipartiteGraphHelper", "software/cnfgen/cnfformula/families/pebbling.py:SparseStoneCmdHelper", "software/cnfgen/cnfformula/families/pigeonhole.py:GPHPCmdHelper", "software/cnfgen/cnfformula/families/subsetcardinality.py:SCCmdHelper"]}
{"id": "C99", "title": "cnfgen over a directed graph given on the standard input", "statement": "cnfgen peb, stone and stonesparse with --graphformat kthlist read the directed graph from the standard input. For every text: if it does not list the predecessors of n vertices without a cycle (or the number of stones is negative, or the bipartite graph does not fit) a message is printed and no formula; otherwise a DIMACS formula is printed, with or without transformations, and it can be satisfied exactly if n = 0. The clauses are the pebbling rules, respectively the stone rules, of the graph listed. stonesparse with both graphs on the standard input is always refused.", "quantifier": "all texts on the standard input, all numbers of stones, all bipartite graphs and random choices, all chains of transformations", "why_tests_cant": "The texts are arbitrary: every graph, with and without cycles, every number of stones and every refusal would have to be tried", "anchors": ["software/cnfgen/cnfformula/cmdline.py:DirectedAcyclicGraphHelper.obtain_graph", "software/cnfgen/cnfformula/families/pebbling.py:PebblingCmdHelper", "software/cnfgen/cnfformula/families/pebbling.py:StoneCmdHelper", "software/cnfgen/cnfformula/families/pebbling.py:SparseStoneCmdHelper"]}
{"id": "C100", "title": "The formula object with its tables, flag and fast internal methods, after any history of calls", "statement": "After any history of add_variable, add_clause with any of its flags, add_clause_unsafe, _add_compressed_clauses and _check_coherence on a new CNF object, exceptions being caught: if no clauses were added by _add_compressed_clauses since the last check that returned True, then variables() gives the names in the order first seen, clauses() exactly the clauses of the calls that did not raise, in order, len their number, and dimacs() a text for them; otherwise reading and printing raise AssertionError. Each call raises exactly as documented and then has changed nothing; variables never change their number. _check_coherence returns True exactly if every number in a clause stands for a variable, with and without force; once it returned False the object can never be used again. For the safe calls the object and the plain formula of the other properties go the same way.", "quantifier": "all histories of calls of any length with any arguments, over all kinds of variable names", "why_tests_cant": "The object is mutable and its two tables, the clauses and the flag must agree after every history, including histories with failed calls; tests see only a few histories", "anchors": ["software/cnfgen/cnfformula/cnf.py:CNF.add_clause", "software/cnfgen/cnfformula/cnf.py:CNF._add_compressed_clauses", "software/cnfgen/cnfformula/cnf.py:CNF._check_coherence", "software/cnfgen/cnfformula/cnf.py:CNF.__iter__", "software/cnfgen/cnfformula/cnf.py:CNF.__len__"]}
{"id": "C101", "title": "What the command line of main.py asks for", "statement": "A command line of main.py made of the documented options (short or long names, unambiguous abbreviations, values in the next word, after =, or attached to a one-letter option, one-letter flags joined) is read as what it asks for: a flag is on exactly when it is given, an option given several times has its last value. It is refused with status 2, and nothing is solved or written, when a value cannot be used (not a whole number, not a mode, a file that cannot be opened), when two of -v, -vv, -q, -qn are given, or when not exactly one of -l, -lf, -d is given. Whatever the words, the program either ends at once or works with options that name exactly one input, and its status is 0, 2 or 3. With -v the words lead to the right verdict about the named file. Words with two meanings (-ve, -th, -gd) are refused wherever they stand. A command line that is not accepted ends with status 2, unless one of its words asks for help or the version.", "quantifier": "every list of words, every set of files, every text on the standard input", "why_tests_cant": "the words can be combined in unboundedly many ways and orders; tests try a few command lines", "anchors": ["main.py: __main__ (parser, checks)"]}
{"id": "C102", "title": "What the command lines of cnfshuffle, dimacstransform and kthlist2pebbling ask for", "statement": "Whatever the words of the command line of cnfshuffle, dimacstransform or kthlist2pebbling, they are read in at most one way as options and left-over words, and the tool works exactly when they are read so that no help is asked for, no file is to be read with -i, every file to be written can be opened and (for cnfshuffle) no word is left over; otherwise it ends with a message or the help text and prints no formula. The comments are left out exactly when -q is given; with -p no literal changes its sign, with -v no variable changes its place, with -c no clause changes its place, and without them nothing else changes but signs, variables and places of the clauses: the printed formula is satisfiable exactly when the formula read is, each clause is found again in its new place with its literals renamed in the old order, and the last seed given counts, the empty one not at all. With -p, -v and -c the formula is printed unchanged. The transformation named on the command line of the other two tools is applied with its parameters to the formula read or the pebbling formula of the graph; if none is named they end in an AttributeError.", "quantifier": "every list of words without the word --, every text on the standard input, every choice made by the random generator, every set of files that can be opened", "why_tests_cant": "the words can be combined in unboundedly many ways and orders, and the formulas, graphs and random choices are unbounded; tests try a few command lines", "anchors": ["software/cnfgen/cnfformula/utils/cnfshuffle.py: command_line_utility", "software/cnfgen/cnfformula/utils/dimacstransform.py: command_line_utility", "software/cnfgen/cnfformula/utils/kthlist2pebbling.py: command_line_utility"]}
