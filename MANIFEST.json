{
 "claims": [
  {
   "property": "C01",
   "status": "proved",
   "theorems": [
    "NDP.C01_sat_sound"
   ],
   "note": ""
  },
  {
   "property": "C02",
   "status": "proved",
   "theorems": [
    "NDP.C02_unsat_sound"
   ],
   "note": ""
  },
  {
   "property": "C03",
   "status": "proved",
   "theorems": [
    "NDP.C03_terminates"
   ],
   "note": ""
  },
  {
   "property": "C04",
   "status": "proved",
   "theorems": [
    "NDP.C04_solution_correct"
   ],
   "note": ""
  },
  {
   "property": "C05",
   "status": "proved",
   "theorems": [
    "NDP.C05_exit_same_verdict"
   ],
   "note": ""
  },
  {
   "property": "C06",
   "status": "proved",
   "theorems": [
    "NDP.C06_mode_independent"
   ],
   "note": ""
  },
  {
   "property": "C07",
   "status": "proved",
   "theorems": [
    "NDP.C07_threads_same_verdict"
   ],
   "note": ""
  },
  {
   "property": "C08",
   "status": "proved",
   "theorems": [
    "NDP.C08_db_queue_transparent",
    "NDP.C08_reinsert_breaks"
   ],
   "note": "for nodes with different identities (what the solver inserts); reinserting an identity breaks the queue, as the second theorem shows"
  },
  {
   "property": "C09",
   "status": "proved",
   "theorems": [
    "NDP.C09_normalisation_terminates"
   ],
   "note": ""
  },
  {
   "property": "C10",
   "status": "proved",
   "theorems": [
    "NDP.C10_normalised_order"
   ],
   "note": ""
  },
  {
   "property": "C100",
   "status": "proved",
   "theorems": [
    "NDP.Cnfgen.C100_read",
    "NDP.Cnfgen.C100_call",
    "NDP.Cnfgen.C100_check",
    "NDP.Cnfgen.C100_dead",
    "NDP.Cnfgen.C100_refines"
   ],
   "note": "All histories, all flags. Not modelled: the header, the descriptions of variables, arguments that are not lists of pairs, a generator that is still being read while the object changes. An exception for opposite literals is a TypeError instead of the documented ValueError if a name is not a string (the message joins the names); the theorem says so."
  },
  {
   "property": "C101",
   "status": "proved",
   "theorems": [
    "NDP.C101_exact",
    "NDP.C101_unique",
    "NDP.C101_written",
    "NDP.C101_request",
    "NDP.C101_help",
    "NDP.C101_only_help",
    "NDP.C101_refused",
    "NDP.C101_every",
    "NDP.C101_parsed",
    "NDP.C101_two_meanings",
    "NDP.C101_negative_word",
    "NDP.C101_dashes",
    "NDP.C101_status",
    "NDP.C101_verdict"
   ],
   "note": "argparse of Python 3.8 to 3.11. C101_exact: exactly the command lines that are accepted and the options they give, for arbitrary words; C101_refused: all others have status 2 unless a word asks for help; C101_request: the refusals for the usual spellings."
  },
  {
   "property": "C102",
   "status": "proved",
   "theorems": [
    "NDP.Cnfgen.C102_unique",
    "NDP.Cnfgen.C102_cnfshuffle",
    "NDP.Cnfgen.C102_cnfshuffle_prints",
    "NDP.Cnfgen.C102_changes",
    "NDP.Cnfgen.C102_text_exact",
    "NDP.Cnfgen.C102_text_line",
    "NDP.Cnfgen.C102_names_transformation",
    "NDP.Cnfgen.C102_one_transformation",
    "NDP.Cnfgen.C102_transformation",
    "NDP.Cnfgen.C102_no_transformation",
    "NDP.Cnfgen.C102_dimacstransform_prints",
    "NDP.Cnfgen.C102_kthlist2pebbling_prints",
    "NDP.Cnfgen.C102_files"
   ],
   "note": "argparse of Python 3.8 to 3.11; the text on the standard input; a formula whose literals are all in range (C70). Files as output: C102_files (nothing is written, TypeError). C102_text_exact: exactly the command lines the two text tools accept and what they ask for; the transformations by variable compression are the parameter otherT."
  },
  {
   "property": "C11",
   "status": "proved",
   "theorems": [
    "NDP.C11_normalisation_renames"
   ],
   "note": ""
  },
  {
   "property": "C12",
   "status": "proved",
   "theorems": [
    "NDP.C12_branching_exact"
   ],
   "note": ""
  },
  {
   "property": "C13",
   "status": "proved",
   "theorems": [
    "NDP.C13_tracking"
   ],
   "note": ""
  },
  {
   "property": "C14",
   "status": "proved",
   "theorems": [
    "NDP.C14_body_identity",
    "NDP.C14_body_not_const",
    "NDP.C14_merge_only_identical"
   ],
   "note": ""
  },
  {
   "property": "C15",
   "status": "proved",
   "theorems": [
    "NDP.C15_clause_canonical",
    "NDP.C15_four_literals_not_recognised"
   ],
   "note": ""
  },
  {
   "property": "C16",
   "status": "proved",
   "theorems": [
    "NDP.C16_clause_order",
    "NDP.C16_literal_order"
   ],
   "note": ""
  },
  {
   "property": "C17",
   "status": "partial",
   "theorems": [
    "NDP.C17_graph_well_formed",
    "NDP.C17_thief_workers_refuted"
   ],
   "note": "Everything is proved except reachability of every node in runs with both -thief and several workers; there it is false of the code (second theorem: a concrete complete run whose merged graph has no node reaching all the others)."
  },
  {
   "property": "C18",
   "status": "proved",
   "theorems": [
    "NDP.C18_stats_exact"
   ],
   "note": ""
  },
  {
   "property": "C19",
   "status": "partial",
   "theorems": [
    "NDP.C19_counts_agree",
    "NDP.C19_counter_exact",
    "NDP.C19_thief_workers_refuted"
   ],
   "note": "Proved for all runs except -thief with several workers, where it is false of the code (third theorem: a concrete run reporting fewer unique nodes than its graph has)."
  },
  {
   "property": "C20",
   "status": "partial",
   "theorems": [
    "NDP.C20_threads_same_graph",
    "NDP.C20_thief_workers_refuted"
   ],
   "note": "Proved without -thief; with -thief it is false of the code (second theorem, concrete run)."
  },
  {
   "property": "C21",
   "status": "partial",
   "theorems": [
    "NDP.C21_dimacs_faithful_partial",
    "NDP.C21_refused_iff",
    "NDP.C21_reads_seen",
    "NDP.C21_first_line_lost",
    "NDP.C21_blank_line_truncates",
    "NDP.C21_empty_clause_lost"
   ],
   "note": "The unrestricted property is FALSE of the code: three theorems exhibit the first line being dropped, everything after a blank line being dropped, an empty clause being ignored. Proved for every text: exactly which files are refused (C21_refused_iff) and what is read from all others (C21_reads_seen); faithful for every text whose first line is a comment/problem line, with no blank line before the last data line and no empty clause."
  },
  {
   "property": "C22",
   "status": "proved",
   "theorems": [
    "NDP.C22_line_faithful",
    "NDP.C22_roundtrip",
    "NDP.C22_malformed_is_silent"
   ],
   "note": "All written formulas with any decoration; round trip of the serialised set. Malformed text silently gives an empty run (also proved)."
  },
  {
   "property": "C23",
   "status": "partial",
   "theorems": [
    "NDP.C23_line_option_refuted"
   ],
   "note": "The property is FALSE of the code: proved that for every text, argument and environment a -l run ends with an exception and solves nothing."
  },
  {
   "property": "C24",
   "status": "partial",
   "theorems": [
    "NDP.C24_main_verdict_partial",
    "NDP.C24_tautologies_refuted"
   ],
   "note": "Main end to end: exact verdict, solution and VERIFIED for every readable input with at least one non-tautological clause. For all-tautology inputs the property is FALSE of the code (ValueError), proved for every such input."
  },
  {
   "property": "C25",
   "status": "proved",
   "theorems": [
    "NDP.C25_verify_exact"
   ],
   "note": ""
  },
  {
   "property": "C26",
   "status": "proved",
   "theorems": [
    "NDP.C26_solution_file",
    "NDP.C26_solution_file_get"
   ],
   "note": ""
  },
  {
   "property": "C27",
   "status": "proved",
   "theorems": [
    "NDP.C27_properties_roundtrip",
    "NDP.C27_negative_name_fails"
   ],
   "note": "for maps without negative names; a negative key makes parsing fail (second theorem)"
  },
  {
   "property": "C28",
   "status": "proved",
   "theorems": [
    "NDP.C28_substitution_exact",
    "NDP.C28_refused_is_plain"
   ],
   "note": " A refused -fact preprocessing leaves the plain run."
  },
  {
   "property": "C29",
   "status": "partial",
   "theorems": [
    "NDP.C29_substitution",
    "NDP.C29_factorizer_partial",
    "NDP.C29_exact",
    "NDP.C29_recursive_misread"
   ],
   "note": "Substitution part for every formula; number, widths and models for every generated formula of the Wallace and carry-save multipliers, and of the recursive one below 2^21 or, below 2^40, on numbers with an even number of binary digits. C29_exact: these are exactly the formulas whose widths are found; on all others the code misreads them (C29_recursive_misread), so the full statement is false."
  },
  {
   "property": "C30",
   "status": "proved",
   "theorems": [
    "NDP.C30_multiply"
   ],
   "note": "For every formula with undecided, nonempty clauses and every pair of factors."
  },
  {
   "property": "C31",
   "status": "partial",
   "theorems": [
    "NDP.C31_reported",
    "NDP.C31_decoded_partial",
    "NDP.C31_messages_true"
   ],
   "note": "Reported factorizations are true for every formula and solution; decoding proved for every solution of every generated formula except those of the recursive multiplier whose widths are misread (exactly those of C29_exact). Whatever the input, what -fact prints is true (C31_messages_true)."
  },
  {
   "property": "C32",
   "status": "proved",
   "theorems": [
    "NDP.Gen.C32_simulate",
    "NDP.Gen.C32_formula",
    "NDP.Gen.C32_satisfiable",
    "NDP.Gen.C32_carrySave_zero",
    "NDP.C32_text",
    "NDP.C32_main_verdict"
   ],
   "note": "All adders and multipliers, every N >= 4; the printed text is read back faithfully and solved correctly."
  },
  {
   "property": "C33",
   "status": "proved",
   "theorems": [
    "NDP.C33_factorization"
   ],
   "note": "Every N >= 4, Wallace and carry-save multipliers (the recursive one where C29_exact says its widths are read), both adders, every mode and number of workers, no global DB; assuming no two sets met have colliding digests."
  },
  {
   "property": "C34",
   "status": "partial",
   "theorems": [
    "NDP.C34_refuted",
    "NDP.C34_rerun_same_verdict_partial",
    "NDP.gdb_run_is_local"
   ],
   "note": "As stated the property is false of the code: C34_refuted proves that with statistics saved every rerun of every satisfiable CNF reports 'Not satisfiable'. Proved part: the first run gives the same report as a run without the table (gdb_run_is_local); the rerun keeps the verdict if the formula is unsatisfiable, or with -ns and without -e (C34_rerun_same_verdict_partial)."
  },
  {
   "property": "C35",
   "status": "partial",
   "theorems": [
    "NDP.C35_resumed_verdict_partial",
    "NDP.C35_killed_table_sound",
    "NDP.C35_resume_iff",
    "NDP.C35_refuted"
   ],
   "note": "As stated the property is false of the code (C35_refuted: resumed runs can only end in an error). Proved: the table left by a kill is sound; a resumed run that finishes gives the right verdict; C35_resume_iff says when it finishes."
  },
  {
   "property": "C36",
   "status": "proved",
   "theorems": [
    "NDP.C36_rows_sound_and_stable",
    "NDP.C36_from_empty"
   ],
   "note": "all interleavings of main and worker processes sharing one table"
  },
  {
   "property": "C37",
   "status": "partial",
   "theorems": [
    "NDP.C37_no_node_lost_partial",
    "NDP.C37_complete_when_done",
    "NDP.C37_no_node_lost_up_to_renaming_partial",
    "NDP.C37_thief_refuted"
   ],
   "note": "Exact statement proved without the thief method. With -th it is false (C37_thief_refuted: a run that is done leaves a row naming a child that is neither stored nor queued); for all options it holds up to renaming of variables and order of clauses and literals (C37_no_node_lost_up_to_renaming_partial). Assumes no digest collisions on the texts met."
  },
  {
   "property": "C38",
   "status": "partial",
   "theorems": [
    "NDP.C38_memory_fifo",
    "NDP.C38_unique_fifo",
    "NDP.C38_unique_pop",
    "NDP.C38_unique_db_broken"
   ],
   "note": "proved for plain and unique in-memory queues (DB queue: C08); false of unique_queue with a runtime DB (C38_unique_db_broken)"
  },
  {
   "property": "C39",
   "status": "partial",
   "theorems": [
    "NDP.C39_refuted",
    "NDP.C39_hangs"
   ],
   "note": "the property is false of the code: the failed worker's thread is never removed, the collection loop never ends; the negation is proved"
  },
  {
   "property": "C40",
   "status": "partial",
   "theorems": [
    "NDP.C40_num_of_vars_partial",
    "NDP.C40_refuted"
   ],
   "note": "false of the code: the column is the last literal's variable; proved exactly when it agrees, with a reachable witness of disagreement"
  },
  {
   "property": "C41",
   "status": "partial",
   "theorems": [
    "NDP.C41_trial_division",
    "NDP.C41_script_composite",
    "NDP.C41_script_prime_crashes"
   ],
   "note": "the function is exact; the script's reporting of primes crashes (TypeError), proved"
  },
  {
   "property": "C42",
   "status": "partial",
   "theorems": [
    "NDP.C42_multiplication_partial",
    "NDP.C42_recursive_refused",
    "NDP.C42_messages_true"
   ],
   "note": "Every pair of numbers that fit, Wallace and carry-save multipliers (the recursive one where C29_exact says its widths are read), assuming no digest collisions; false for the recursive multiplier elsewhere: refused for all x, y > 1 on numbers of 23, 25, ..., 83 binary digits. Whatever the input, what -mult prints is true (C42_messages_true)."
  },
  {
   "property": "C43",
   "status": "partial",
   "theorems": [
    "NDP.C43_refuted"
   ],
   "note": "false of the code; the negation is proved for every formula"
  },
  {
   "property": "C44",
   "status": "proved",
   "theorems": [
    "NDP.C44_never_wrong",
    "NDP.C44_verdict",
    "NDP.C44_solution",
    "NDP.C44_terminates",
    "NDP.C44_progress"
   ],
   "note": "Soundness on any table with sound rows; verdict for tables that start empty, all options including the thief method; solution, progress for tables that start empty without -gnm. Assumes no digest collisions on the texts met. Workers that fail to connect are C39/C43."
  },
  {
   "property": "C45",
   "status": "partial",
   "theorems": [
    "NDP.C45_drawing_no_effect",
    "NDP.C45_drawing_shows_the_graph",
    "NDP.C45_drawing_is_true",
    "NDP.C45_figures_match",
    "NDP.C45_workers_not_drawn",
    "NDP.C45_workers_drawing_partial"
   ],
   "note": "No effect on the run: proved for all runs. Content of the drawing: proved for every run of one process (any database for nodes, edges, red marks; no global DB for labels, T/F arrows and statistics). With workers it is FALSE of the code: what workers find is not drawn (C45_workers_not_drawn, a concrete run with two workers). What is drawn with workers is right: nodes, arrows, labels, red marks (C45_workers_drawing_partial, no global DB). Not modelled: attribute texts, the statistics box, rendering."
  },
  {
   "property": "C46",
   "status": "partial",
   "theorems": [
    "NDP.C46_solution_file_partial",
    "NDP.C26_solution_file_get",
    "NDP.C24_tautologies_refuted"
   ],
   "note": "Main end to end, for every readable input with at least one non-tautological clause, no task options, no global DB: satisfiable iff a file is written, and the file satisfies every non-tautological clause. Missing: inputs whose clauses are all tautologies, for which the code logs a ValueError and writes no file (C24_tautologies_refuted)."
  },
  {
   "property": "C47",
   "status": "partial",
   "theorems": [
    "NDP.C47_stored_counts",
    "NDP.C47_rerun_counts_partial"
   ],
   "note": "The rows hold the exact counts (C47_stored_counts). A rerun reports the same unique, redundant and hit figures, but the line 'Number of unique nodes' is computed from the nodes recorded by the run, which are none: it says 0 (C47_rerun_counts_partial says both), so the second sentence of the property is false for that line."
  },
  {
   "property": "C48",
   "status": "proved",
   "theorems": [
    "NDP.Cnfgen.C48_less_than",
    "NDP.Cnfgen.C48_less_or_equal",
    "NDP.Cnfgen.C48_greater_than",
    "NDP.Cnfgen.C48_greater_or_equal",
    "NDP.Cnfgen.C48_equal_to",
    "NDP.Cnfgen.C48_loose_majority",
    "NDP.Cnfgen.C48_loose_minority",
    "NDP.Cnfgen.C48_exactly_half_ceil",
    "NDP.Cnfgen.C48_exactly_half_floor",
    "NDP.Cnfgen.C48_parity"
   ],
   "note": "Every builder, every bound (an Int), every list of variables; repeated variables are counted as often as listed."
  },
  {
   "property": "C49",
   "status": "proved",
   "theorems": [
    "NDP.Cnfgen.UnaryMapping.C49_unary",
    "NDP.Cnfgen.BinaryMapping.C49_binary"
   ],
   "note": "The number of bits of a binary mapping, computed in floating point by the code, is a parameter; the theorem needs only that it is large enough."
  },
  {
   "property": "C50",
   "status": "proved",
   "theorems": [
    "NDP.Cnfgen.C50_pigeonhole",
    "NDP.Cnfgen.C50_graph_pigeonhole",
    "NDP.Cnfgen.C50_graph_matching",
    "NDP.Cnfgen.C50_binary_pigeonhole"
   ],
   "note": "Binary version for at least one hole (the code raises for none) and enough bits."
  },
  {
   "property": "C51",
   "status": "proved",
   "theorems": [
    "NDP.Cnfgen.C51_graph_ordering",
    "NDP.Cnfgen.C51_ordering"
   ],
   "note": "All variants at once."
  },
  {
   "property": "C52",
   "status": "proved",
   "theorems": [
    "NDP.Cnfgen.C52_counting",
    "NDP.Cnfgen.C52_perfect_matching"
   ],
   "note": "Also p = 0."
  },
  {
   "property": "C53",
   "status": "proved",
   "theorems": [
    "NDP.Cnfgen.C53_tseitin",
    "NDP.Cnfgen.C53_default"
   ],
   "note": "Explicit charges of any length (missing ones count as even), and the default."
  },
  {
   "property": "C54",
   "status": "proved",
   "theorems": [
    "NDP.Cnfgen.C54_coloring",
    "NDP.Cnfgen.C54_even_coloring",
    "NDP.Cnfgen.C54_even_coloring_doc_refuted"
   ],
   "note": "The documentation's claim about even components is refuted."
  },
  {
   "property": "C55",
   "status": "proved",
   "theorems": [
    "NDP.Cnfgen.C55_or",
    "NDP.Cnfgen.C55_xor",
    "NDP.Cnfgen.C55_maj",
    "NDP.Cnfgen.C55_all_equal",
    "NDP.Cnfgen.C55_not_all_equal",
    "NDP.Cnfgen.C55_ite",
    "NDP.Cnfgen.C55_one",
    "NDP.Cnfgen.C55_lift",
    "NDP.Cnfgen.C55_flip",
    "NDP.Cnfgen.C55_compression"
   ],
   "note": "Names are made by an injective printing of the old variables. Compression: the assignment correspondence (satisfiability may change, as intended)."
  },
  {
   "property": "C56",
   "status": "proved",
   "theorems": [
    "NDP.Cnfgen.C56_shuffle",
    "NDP.Cnfgen.C56_out_of_range",
    "NDP.Cnfgen.C56_out_of_range_refuted"
   ],
   "note": "The random choices are arguments. Proved for formulas whose literals are in range (what a CNF object guarantees). For the formulas the DIMACS reader accepts out of range, shuffling acts on a different formula (C56_out_of_range) and may lose satisfiability (C56_out_of_range_refuted)."
  },
  {
   "property": "C57",
   "status": "proved",
   "theorems": [
    "NDP.Cnfgen.C57_dimacs_roundtrip",
    "NDP.Cnfgen.C57_dimacs_standard",
    "NDP.Cnfgen.C57_solver_reads",
    "NDP.Cnfgen.C57_solver_verdict"
   ],
   "note": "Line breaks inside text are newline characters only. The solver run is a local one without hash collisions (as in C24), on a formula with a clause that is not a tautology."
  },
  {
   "property": "C58",
   "status": "proved",
   "theorems": [
    "NDP.Cnfgen.C58_session",
    "NDP.Cnfgen.C58_families_proper",
    "NDP.Cnfgen.C58_more_families_proper"
   ],
   "note": "Flags literal_repetitions and opposite_literals at their default."
  },
  {
   "property": "C59",
   "status": "proved",
   "theorems": [
    "NDP.Cnfgen.C59_ramsey",
    "NDP.Cnfgen.C59_pythagorean"
   ],
   "note": "The floating point square root of the Pythagorean family is a parameter, assumed right on squares up to n\u00b2."
  },
  {
   "property": "C60",
   "status": "proved",
   "theorems": [
    "NDP.Cnfgen.C60_clique_coloring"
   ],
   "note": ""
  },
  {
   "property": "C61",
   "status": "proved",
   "theorems": [
    "NDP.Cnfgen.C61_dominating_set"
   ],
   "note": "Bounds are natural numbers; the ValueError for d<1 is built but not raised in the code, so 0 is covered too."
  },
  {
   "property": "C62",
   "status": "proved",
   "theorems": [
    "NDP.Cnfgen.C62_subset_cardinality"
   ],
   "note": ""
  },
  {
   "property": "C63",
   "status": "proved",
   "theorems": [
    "NDP.Cnfgen.C63_isomorphism",
    "NDP.Cnfgen.C63_automorphism"
   ],
   "note": ""
  },
  {
   "property": "C64",
   "status": "proved",
   "theorems": [
    "NDP.Cnfgen.C64_pebbling",
    "NDP.Cnfgen.C64_stone",
    "NDP.Cnfgen.C64_sparse_stone",
    "NDP.Cnfgen.C64_builtin_dags"
   ],
   "note": ""
  },
  {
   "property": "C65",
   "status": "proved",
   "theorems": [
    "NDP.Cnfgen.C65_subgraph",
    "NDP.Cnfgen.C65_clique",
    "NDP.Cnfgen.C65_binary_clique"
   ],
   "note": "Binary: the number of bits is a parameter with N <= 2^bits."
  },
  {
   "property": "C66",
   "status": "partial",
   "theorems": [
    "NDP.Cnfgen.C66_templates_partial",
    "NDP.Cnfgen.C66_two_templates_partial",
    "NDP.Cnfgen.C66_many_templates_partial",
    "NDP.Cnfgen.C66_ramsey_witness_partial",
    "NDP.Cnfgen.C66_ramsey_witness_diag",
    "NDP.Cnfgen.C66_ramsey_witness_sound",
    "NDP.Cnfgen.C66_order_refuted",
    "NDP.Cnfgen.C66_three_refuted",
    "NDP.Cnfgen.C66_ramsey_witness_refuted",
    "NDP.Cnfgen.C66_no_template"
   ],
   "note": "The property is false of the code: satisfiable implies a copy exists (proved), the converse fails (refuted) for templates larger than the graph, for three or more templates, and for k different from s. The exact meaning is proved in each case."
  },
  {
   "property": "C67",
   "status": "proved",
   "theorems": [
    "NDP.Cnfgen.C67_pigeonhole",
    "NDP.Cnfgen.C67_graph_pigeonhole",
    "NDP.Cnfgen.C67_binary_pigeonhole",
    "NDP.Cnfgen.C67_graph_ordering",
    "NDP.Cnfgen.C67_counting",
    "NDP.Cnfgen.C67_perfect_matching",
    "NDP.Cnfgen.C67_tseitin",
    "NDP.Cnfgen.C67_coloring",
    "NDP.Cnfgen.C67_even_coloring",
    "NDP.Cnfgen.C67_ramsey",
    "NDP.Cnfgen.C67_pythagorean",
    "NDP.Cnfgen.C67_clique_coloring",
    "NDP.Cnfgen.C67_subset_cardinality",
    "NDP.Cnfgen.C67_isomorphism",
    "NDP.Cnfgen.C67_automorphism",
    "NDP.Cnfgen.C67_pebbling",
    "NDP.Cnfgen.C67_stone",
    "NDP.Cnfgen.C67_sparse_stone",
    "NDP.Cnfgen.C67_dominating_set",
    "NDP.Cnfgen.C67_dominating_set_alternative",
    "NDP.Cnfgen.C67_subgraph",
    "NDP.Cnfgen.C67_subgraph_vars",
    "NDP.Cnfgen.C67_binary_clique"
   ],
   "note": "Floating point parts (number of bits, integer square root) are parameters with the hypothesis stated in the theorem."
  },
  {
   "property": "C68",
   "status": "proved",
   "theorems": [
    "NDP.Cnfgen.C68_random_kcnf",
    "NDP.Cnfgen.C68_count",
    "NDP.Cnfgen.C68_all_possible"
   ],
   "note": "For all random choices allowed by the contracts of random.sample, random.choice and set iteration; nothing about their distribution."
  },
  {
   "property": "C69",
   "status": "proved",
   "theorems": [
    "NDP.Cnfgen.C69_simple"
   ],
   "note": ""
  },
  {
   "property": "C70",
   "status": "proved",
   "theorems": [
    "NDP.Cnfgen.C70_reader_sound",
    "NDP.Cnfgen.C70_reader_complete",
    "NDP.Cnfgen.C70_reader_total",
    "NDP.Cnfgen.C70_reader_range"
   ],
   "note": "Lines end with newline characters only; integers in ASCII."
  },
  {
   "property": "C71",
   "status": "proved",
   "theorems": [
    "NDP.Cnfgen.C71_kth_reject",
    "NDP.Cnfgen.C71_kth_simple",
    "NDP.Cnfgen.C71_kth_digraph",
    "NDP.Cnfgen.C71_kth_dag",
    "NDP.Cnfgen.C71_kth_bipartite",
    "NDP.Cnfgen.C71_kth_bipartite_sides",
    "NDP.Cnfgen.C71_same_side",
    "NDP.Cnfgen.C71_bipartite_refused",
    "NDP.Cnfgen.C71_topological_mark"
   ],
   "note": "kthlist reading for every text and type, with the counterexamples for bipartite files"
  },
  {
   "property": "C72",
   "status": "proved",
   "theorems": [
    "NDP.Cnfgen.C72_kth_simple",
    "NDP.Cnfgen.C72_kth_digraph",
    "NDP.Cnfgen.C72_kth_dag",
    "NDP.Cnfgen.C72_kth_bipartite",
    "NDP.Cnfgen.C72_kth_name",
    "NDP.Cnfgen.C72_kth_refuted"
   ],
   "note": "round trip for every graph whose name would not be misread (NameOK), refuted for names of several lines"
  },
  {
   "property": "C73",
   "status": "proved",
   "theorems": [
    "NDP.Cnfgen.C73_dimacs_read",
    "NDP.Cnfgen.C73_dimacs_reject",
    "NDP.Cnfgen.C73_dimacs_dag",
    "NDP.Cnfgen.C73_dimacs_roundtrip",
    "NDP.Cnfgen.C73_out_of_range",
    "NDP.Cnfgen.C73_dimacs_refuted"
   ],
   "note": "reading for every text with no negative announced number; round trip for one-line names"
  },
  {
   "property": "C74",
   "status": "partial",
   "theorems": [
    "NDP.Cnfgen.C74_left_regular",
    "NDP.Cnfgen.C74_left_regular_all",
    "NDP.Cnfgen.C74_shift",
    "NDP.Cnfgen.C74_regular_errors",
    "NDP.Cnfgen.C74_regular",
    "NDP.Cnfgen.C74_regular_all",
    "NDP.Cnfgen.C74_regular_refuted"
   ],
   "note": "left regular and shift graphs proved for all draws; regular graphs: degree bounds for all draws, every regular graph possible, and regularity of the result refuted by a sequence of draws"
  },
  {
   "property": "C75",
   "status": "proved",
   "theorems": [
    "NDP.Cnfgen.C75_sample_refused",
    "NDP.Cnfgen.C75_sample",
    "NDP.Cnfgen.C75_sample_all",
    "NDP.Cnfgen.C75_add_edges",
    "NDP.Cnfgen.C75_plant_clique",
    "NDP.Cnfgen.C75_plant_biclique",
    "NDP.Cnfgen.C75_runtime_error",
    "NDP.Cnfgen.C75_loop_refuted"
   ],
   "note": "for all simple graphs and all draws; with loops refuted"
  },
  {
   "property": "C76",
   "status": "partial",
   "theorems": [
    "NDP.C76_never_wrongly_satisfiable",
    "NDP.C76_table_stays_right",
    "NDP.C76_terminates",
    "NDP.C76_reads_harmless",
    "NDP.C76_verdict_without_insert_faults",
    "NDP.C76_failed_insert_refuted"
   ],
   "note": "The 'not satisfiable' direction is FALSE of the code (C76_failed_insert_refuted: for every formula without a literal common to all clauses, a failing first INSERT makes the run report 'not satisfiable'): gs_insert_row catches every exception in the clause meant for primary-key violations. Proved: the 'satisfiable' direction, the table and termination under all faults, deaths and interleavings; failing reads of a lone process on an empty table change nothing. Not modelled: faults of the runtime queue's table, and of the final statistics updates (they only affect the counts)."
  },
  {
   "property": "C77",
   "status": "partial",
   "theorems": [
    "NDP.Cnfgen.C77_minisat_right",
    "NDP.Cnfgen.C77_stdout_refuted",
    "NDP.Cnfgen.C77_no_command",
    "NDP.Cnfgen.C77_arguments",
    "NDP.Cnfgen.C77_not_started"
   ],
   "note": "Right for the minisat interface (C77_minisat_right). FALSE of the code for the six solvers that answer on standard output: every call raises RuntimeError on Python 3 (C77_stdout_refuted), so that without a command an answer is possible only when none of them is installed (C77_no_command). A minisat that cannot be started gives an UnboundLocalError (C77_not_started)."
  },
  {
   "property": "C78",
   "status": "proved",
   "theorems": [
    "NDP.Cnfgen.C78_dimacstransform",
    "NDP.Cnfgen.C78_out_of_range",
    "NDP.Cnfgen.C78_dimacstransform_refusals",
    "NDP.Cnfgen.C78_cnfgen",
    "NDP.Cnfgen.C78_solver"
   ],
   "note": "The parsers of options are arguments of the model. Output format dimacs."
  },
  {
   "property": "C79",
   "status": "proved",
   "theorems": [
    "NDP.Cnfgen.C79_splitlist",
    "NDP.Cnfgen.C79_pipe"
   ],
   "note": "Random draws are functions of the number of variables and clauses, the same on both ways."
  },
  {
   "property": "C80",
   "status": "partial",
   "theorems": [
    "NDP.Cnfgen.C80_cnfshuffle",
    "NDP.Cnfgen.C80_cnfshuffle_refuted",
    "NDP.Cnfgen.C80_kthlist2pebbling",
    "NDP.Cnfgen.C80_kthlist2pebbling_clauses"
   ],
   "note": "Proved for texts with literals in range. FALSE of cnfshuffle for texts with literals out of range, which are accepted (C80_cnfshuffle_refuted)."
  },
  {
   "property": "C81",
   "status": "proved",
   "theorems": [
    "NDP.Cnfgen.C81_numbers",
    "NDP.Cnfgen.C81_dimacstransform"
   ],
   "note": "All substitutions; compressions number the left vertices in order (C55_compression), shuffling is C56."
  },
  {
   "property": "C82",
   "status": "proved",
   "theorems": [
    "NDP.Cnfgen.C82_pebbling",
    "NDP.Cnfgen.C82_stone",
    "NDP.Cnfgen.C82_sparse_stone",
    "NDP.Cnfgen.C82_graph_ordering",
    "NDP.Cnfgen.C82_pigeonhole",
    "NDP.Cnfgen.C82_graph_pigeonhole",
    "NDP.Cnfgen.C82_binary_pigeonhole",
    "NDP.Cnfgen.C82_counting",
    "NDP.Cnfgen.C82_perfect_matching",
    "NDP.Cnfgen.C82_tseitin",
    "NDP.Cnfgen.C82_coloring",
    "NDP.Cnfgen.C82_even_coloring",
    "NDP.Cnfgen.C82_ramsey",
    "NDP.Cnfgen.C82_clique_coloring",
    "NDP.Cnfgen.C82_subset_cardinality",
    "NDP.Cnfgen.C82_isomorphism",
    "NDP.Cnfgen.C82_automorphism",
    "NDP.Cnfgen.C82_pythagorean",
    "NDP.Cnfgen.C82_dominating_set",
    "NDP.Cnfgen.C82_dominating_set_alternative",
    "NDP.Cnfgen.C82_subgraph",
    "NDP.Cnfgen.C82_binary_clique"
   ],
   "note": "Says is the specification. Floating point parts (number of bits, integer square root) are parameters with the hypothesis stated in the theorem."
  },
  {
   "property": "C83",
   "status": "partial",
   "theorems": [
    "NDP.C83_limited_or_overflow",
    "NDP.C83_no_stats",
    "NDP.C83_enough_frames",
    "NDP.C83_deep_run_raises",
    "NDP.C83_limit_exact"
   ],
   "note": "Proved: with d frames left every run ends as with an unbounded stack or with RecursionError; with -ns always the former; for formulas with at most d variables always the former. Refuted beyond that: if every partial assignment that satisfies F has more than d variables, every run with statistics and without -e ends with RecursionError although the search found F satisfiable (d+1 unit clauses do it for every d, so the bound is exact). Not covered: between the two bounds, runs that use the global table, runs with -e."
  },
  {
   "property": "C84",
   "status": "proved",
   "theorems": [
    "NDP.Cnfgen.C84_obtain_graph",
    "NDP.Cnfgen.C84_command",
    "NDP.Cnfgen.C84_cnfgen"
   ],
   "note": "The options are what argparse hands over; numbers are natural (negative ones not modelled, except stones). Graph sources: gnd, gnp, gnm, complete, empty, standard input in kthlist format; --grid/--torus and other input formats not modelled (the formats are covered by C70-C73). ramlb: only the documented direction and k = s (C66 shows the rest is false)."
  },
  {
   "property": "C85",
   "status": "proved",
   "theorems": [
    "NDP.Cnfgen.C85_three_coloring",
    "NDP.Cnfgen.C85_random",
    "NDP.Cnfgen.C85_pebbling",
    "NDP.Cnfgen.C85_pythagorean",
    "NDP.Cnfgen.C85_tseitin"
   ],
   "note": "Local runs (no global DB), no hash collisions, not factorization/multiplication input. Graphs without --addedges and with at least one vertex; ptn for n >= 5 (below the formula is empty)."
  },
  {
   "property": "C86",
   "status": "proved",
   "theorems": [
    "NDP.Cnfgen.C86_obtain_bipartite",
    "NDP.Cnfgen.C86_command",
    "NDP.Cnfgen.C86_cnfgen",
    "NDP.Cnfgen.C86_models"
   ],
   "note": "From the options of BipartiteGraphHelper (all random graph sources with arbitrary choices, kthlist on standard input, plantbiclique, addedges) to the DIMACS text printed. The kthlist text is assumed to be in the documented form (no vertex both target and source); --bregular may end in RecursionError and --addedges in RuntimeError, as the code does. The graph formats other than kthlist are not part of this theorem."
  },
  {
   "property": "C87",
   "status": "proved",
   "theorems": [
    "NDP.Cnfgen.C87_command",
    "NDP.Cnfgen.C87_cnfgen",
    "NDP.Cnfgen.C87_names"
   ],
   "note": "All 27 modelled sub-commands without bipartite graphs (those are C86_models). Without -T. argparse is represented by its result; sources as in C84."
  },
  {
   "property": "C88",
   "status": "proved",
   "theorems": [
    "NDP.Cnfgen.C88_latex",
    "NDP.Cnfgen.C88_start",
    "NDP.Cnfgen.C88_determined",
    "NDP.Cnfgen.C88_same_text",
    "NDP.Cnfgen.C88_bar_misses_last",
    "NDP.Cnfgen.C88_numbers"
   ],
   "note": "Finding: a negative literal whose name has no underscore gets its last character outside the bar; with a name of one character there is no visible bar at all. Names with blanks or line breaks are excluded from the claim that the text determines the clauses (the generators make no such names); there the text is ambiguous."
  },
  {
   "property": "C89",
   "status": "partial",
   "theorems": [
    "NDP.Cnfgen.C89_read",
    "NDP.Cnfgen.C89_autodetect",
    "NDP.Cnfgen.C89_roundtrip",
    "NDP.Cnfgen.C89_matrix_write",
    "NDP.Cnfgen.C89_matrix_determined",
    "NDP.Cnfgen.C89_wrong_choice",
    "NDP.Cnfgen.C89_matrix_unreadable",
    "NDP.Cnfgen.C89_roundtrip_bipartite",
    "NDP.Cnfgen.C89_roundtrip_dag",
    "NDP.Cnfgen.C89_wrong_choice_write"
   ],
   "note": "Everything the code does is proved. As documented the property is FALSE of the code: an unsupported type or format gives a TypeError instead of the documented ValueError (C89_wrong_choice), and no matrix can be read (C89_matrix_unreadable: scanner.next() does not exist in Python 3). multi_edges=False; gml and dot are networkx's and appear as a parameter."
  },
  {
   "property": "C90",
   "status": "partial",
   "theorems": [
    "NDP.C90_status",
    "NDP.C90_verdict_shown",
    "NDP.C90_verdict_hidden",
    "NDP.C90_silent",
    "NDP.C90_quiet_nodes",
    "NDP.C90_solution_name",
    "NDP.C90_solution_name_eq",
    "NDP.C90_solution_file",
    "NDP.C90_line_option"
   ],
   "note": "Exit status, -qn, solution file and names: proved. 'The verdict is shown' is FALSE of the code unless -v or -vv is given (C90_verdict_hidden for every input and option combination; C90_silent: a satisfiable and an unsatisfiable input then look the same, status included). Shown with -v/-vv (C90_verdict_shown), for readable inputs with a non-tautological clause, without tasks and global table. Model of the terminal: lines about the outcome only."
  },
  {
   "property": "C91",
   "status": "partial",
   "theorems": [
    "NDP.Cnfgen.C91_plain",
    "NDP.Cnfgen.C91_bm",
    "NDP.Cnfgen.C91_bd",
    "NDP.Cnfgen.C91_bregular",
    "NDP.Cnfgen.C91_bp",
    "NDP.Cnfgen.C91_gnp",
    "NDP.Cnfgen.C91_bshift",
    "NDP.Cnfgen.C91_bd_graph",
    "NDP.Cnfgen.C91_bregular_graph",
    "NDP.Cnfgen.C91_bcomplete_graph",
    "NDP.Cnfgen.C91_bshift_graph"
   ],
   "note": "What is accepted is proved exactly for every string, and the graphs that follow for --bd, --bregular (degrees as upper bounds, see C74), --bcomplete, --bshift. FALSE of the code: values refused by the checks of --gnp, --bp, --bm, --bd, --bregular, --bshift give an AttributeError (e.message) instead of a message; --gnp accepts nan. What networkx does with --gnp, --gnm, --gnd, --bp, --bm, --grid, --torus is not modelled."
  },
  {
   "property": "C92",
   "status": "partial",
   "theorems": [
    "NDP.C92_tables",
    "NDP.C92_isolated",
    "NDP.C92_rows_kept",
    "NDP.C92_verdict",
    "NDP.C92_delete",
    "NDP.C92_delete_else",
    "NDP.C92_delete_then_run",
    "NDP.C92_normal_table_stays",
    "NDP.C92_options_share_table"
   ],
   "note": "Proved for every history from a data base without tables, assuming no digest collision on the texts met. Refuted: the table of mode normal cannot be deleted with the scripts (C92_normal_table_stays); the table is shared by runs with and without -z, so statistics can depend on earlier runs (C92_options_share_table). Not modelled: a table dropped while a run uses it."
  },
  {
   "property": "C93",
   "status": "proved",
   "theorems": [
    "NDP.Cnfgen.C93_command",
    "NDP.Cnfgen.C93_cnfgen",
    "NDP.Cnfgen.C93_strict",
    "NDP.Cnfgen.C93_no_exceptions_refuted"
   ],
   "note": "The documented 'must not raise exceptions' fails with networkx >= 2.0 (op/kclique/ramlb with a negative number); with the versions required the statement holds for all integers (except --addedges, see C84)."
  },
  {
   "property": "C94",
   "status": "partial",
   "theorems": [
    "NDP.Cnfgen.C94_comments",
    "NDP.Cnfgen.C94_header",
    "NDP.Cnfgen.C94_header_refuted",
    "NDP.Cnfgen.C94_latex_refuted",
    "NDP.Cnfgen.C94_latex_error"
   ],
   "note": "C94_comments: the comments of every printed file. C94_header: same header, same formula, for php, bphp, parity, count, ptn, ram, cliquecoloring, or, and. Refuted: `empty` and `emptyclause` have the same header (one satisfiable, one not); `-of latex` never prints a formula (`file` does not exist in Python 3: NameError). Headers of graph families contain the name networkx gives the graph: not modelled."
  },
  {
   "property": "C95",
   "status": "partial",
   "theorems": [
    "NDP.Gen.C95_comments",
    "NDP.Gen.C95_arguments",
    "NDP.Gen.C95_small_refuted"
   ],
   "note": "Proved for every N >= 4. Refuted for N = 2 and N = 3, which the generator accepts: the printed formula is satisfiable, no assignment gives the product N (C95_small_refuted). What is printed before an error is not modelled."
  },
  {
   "property": "C96",
   "status": "proved",
   "theorems": [
    "NDP.Cnfgen.C96_understood",
    "NDP.Cnfgen.C96_transformation",
    "NDP.Cnfgen.C96_cnfgen",
    "NDP.Cnfgen.C96_accepted",
    "NDP.Cnfgen.C96_wrong_count",
    "NDP.Cnfgen.C96_nothing",
    "NDP.Cnfgen.C96_exact",
    "NDP.Cnfgen.C96_refused",
    "NDP.Cnfgen.C96_words",
    "NDP.Cnfgen.clear_iff",
    "NDP.Cnfgen.C96_two_meanings",
    "NDP.Cnfgen.C102_names_transformation"
   ],
   "note": "argparse is modelled (prefix matching, combined letters, negative numbers, exclusive groups), not proved from its source; the word -- is not covered, and families over graphs are not. C96_exact: exactly the words accepted after the name of a family; C102_names_transformation: exactly the words that name a transformation. Assumed: random source, logarithm and square root keep their promises; - is a text stream."
  },
  {
   "property": "C97",
   "status": "proved",
   "theorems": [
    "NDP.Cnfgen.C97_understood",
    "NDP.Cnfgen.C97_refused",
    "NDP.Cnfgen.C97_two_sources",
    "NDP.Cnfgen.C97_needs_graph",
    "NDP.Cnfgen.C97_grid_swallows",
    "NDP.Cnfgen.C97_cnfgen",
    "NDP.Cnfgen.graphCommand_iff",
    "NDP.Cnfgen.C97_bad_value",
    "NDP.Cnfgen.C97_help"
   ],
   "note": "Documented spellings, any order and number of items: understood exactly as asked (iff), and end to end with the transformations of C96. Graphs from the standard input in the kthlist format or by --gnp, --gnm, --gnd (degree below the number of vertices), --complete, --empty, with --plantclique and --addedges; --grid, --torus, --savegraph and other formats are a parameter of the model, except that a number after --grid/--torus is shown to be swallowed. --addedges may end in a RuntimeError (C84)."
  },
  {
   "property": "C98",
   "status": "proved",
   "theorems": [
    "NDP.Cnfgen.C98_understood",
    "NDP.Cnfgen.C98_refused",
    "NDP.Cnfgen.C98_conflict",
    "NDP.Cnfgen.C98_bad_value",
    "NDP.Cnfgen.C98_cnfgen",
    "NDP.Cnfgen.C98_pebbling",
    "NDP.Cnfgen.C98_others",
    "NDP.Cnfgen.bipCommand_iff",
    "NDP.Cnfgen.C98_help"
   ],
   "note": "Documented spellings, any order and number of items: understood exactly as asked (iff), and end to end with the transformations of C96. Bipartite graphs from the standard input in the kthlist format or by all constructions, with --plantbiclique and --addedges; directed graphs by --tree and --pyramid. Directed graphs read from a file, --savegraph and other formats are a parameter of the model. --addedges may end in a RuntimeError (C84), --bregular in a RecursionError (C86)."
  },
  {
   "property": "C99",
   "status": "proved",
   "theorems": [
    "NDP.Cnfgen.C99_command",
    "NDP.Cnfgen.C99_cnfgen",
    "NDP.Cnfgen.C99_peb",
    "NDP.Cnfgen.C99_one_stdin",
    "NDP.Cnfgen.C99_clauses",
    "NDP.Cnfgen.C99_sparse_clauses"
   ],
   "note": "All texts, in the kthlist format. The options are those parsed (for their words see C98). --addedges and --bregular of the bipartite graph of stonesparse may end in a RuntimeError or RecursionError."
  }
 ]
}