{
 "claims": [
  {
   "property": "C01",
   "status": "partial",
   "theorems": [
    "Verif.Factory.C01_same_call_same_handle_partial",
    "Verif.Factory.C01_same_call_same_handle_basic",
    "Verif.Factory.C01_handle_unique",
    "Verif.Factory.C01_formula_unique",
    "Verif.Factory.C01_id_unique",
    "Verif.Factory.C01_word_unique",
    "Verif.Factory.C01_encoding_injective",
    "Verif.Factory.C01_same_call_counterexample",
    "Verif.Factory.C01_overflow"
   ],
   "note": "Uniqueness half proved for all histories. The 'same call, same handle' half is false of the code for And/Or once Minterm/Clause was called with duplicate or complementary literals (C01_same_call_counterexample); proved for all other histories and constructors."
  },
  {
   "property": "C02",
   "status": "proved",
   "theorems": [
    "Verif.Factory.C02_constructor_semantics"
   ],
   "note": "All constructors, all reachable states, all assignments, both settings of the conserve flag."
  },
  {
   "property": "C03",
   "status": "proved",
   "theorems": [
    "Verif.Factory.C03_immutable",
    "Verif.Factory.C03_nodes_immutable"
   ],
   "note": "Mutation of slices by callers (aliasing) is outside the model."
  },
  {
   "property": "C04",
   "status": "proved",
   "theorems": [
    "Verif.Factory.C04_not_involution",
    "Verif.Factory.C04_not_literal"
   ],
   "note": ""
  },
  {
   "property": "C05",
   "status": "proved",
   "theorems": [
    "Verif.Factory.C05_and_shape",
    "Verif.Factory.C05_or_shape",
    "Verif.Factory.C05_distinct",
    "Verif.Factory.C05_counterexample"
   ],
   "note": "Shape holds for all histories, distinctness for histories with documented use of Minterm/Clause; counterexample otherwise (the property statement excludes it)."
  },
  {
   "property": "C06",
   "status": "proved",
   "theorems": [
    "Verif.Assignment.C06_new_error",
    "Verif.Assignment.C06_new_content",
    "Verif.Assignment.C06_evaluate",
    "Verif.Assignment.C06_evaluate_total",
    "Verif.Assignment.C06_restrict",
    "Verif.Assignment.C06_restrict_vars",
    "Verif.Assignment.C06_restrict_total"
   ],
   "note": "Int is unbounded in the model."
  },
  {
   "property": "C07",
   "status": "proved",
   "theorems": [
    "Verif.Assignment.C07_true_sound",
    "Verif.Assignment.C07_false_sound",
    "Verif.Assignment.C07_total"
   ],
   "note": ""
  },
  {
   "property": "C08",
   "status": "proved",
   "theorems": [
    "Verif.NF.C08_nnf_equivalent",
    "Verif.NF.C08_nnf_negative",
    "Verif.NF.C08_nnf_shape",
    "Verif.NF.C08_nnf_pb",
    "Verif.NF.C08_nnf_idempotent",
    "Verif.NF.C08_nnf_vars"
   ],
   "note": "C08_nnf_pb extends it to formulas with constraints, given an exact encoder."
  },
  {
   "property": "C09",
   "status": "proved",
   "theorems": [
    "Verif.NF.C09_factorize",
    "Verif.NF.C09_factorize_nop",
    "Verif.NF.C09_cancellation",
    "Verif.NF.C09_cancelled_no_success",
    "Verif.NF.C09_bound_handler",
    "Verif.NF.C09_handler_not_reusable",
    "Verif.NF.C09_factorize_vars"
   ],
   "note": "For arbitrary handlers and any right cache. C09_handler_not_reusable records that a FactorizationHandler object that cancelled once stays cancelled."
  },
  {
   "property": "C47",
   "status": "partial",
   "theorems": [
    "Verif.NF.C47_aig_equivalent",
    "Verif.NF.C47_aig_shape_partial",
    "Verif.NF.C47_aig_shape_false"
   ],
   "note": "The shape half is false of the code for equivalences (C47_aig_shape_false)."
  },
  {
   "property": "C10",
   "status": "proved",
   "theorems": [
    "Verif.NF.C10_tseitin",
    "Verif.NF.C10_equisatisfiable"
   ],
   "note": "All states reachable by Tseitin calls with any boundaries, any right factorization cache; formulas without CC/PBC and without reserved auxiliary names."
  },
  {
   "property": "C11",
   "status": "partial",
   "theorems": [
    "Verif.NF.C11_pg_partial",
    "Verif.NF.C11_pg_fresh",
    "Verif.NF.C11_pg_reuse_false"
   ],
   "note": "Proved for new states and states reused after large formulas. False of the code for a CNFAuxState in which a small formula was transformed (C11_pg_reuse_false)."
  },
  {
   "property": "C46",
   "status": "partial",
   "theorems": [
    "Verif.NF.C46_cnf_partial",
    "Verif.NF.C46_constraints_partial",
    "Verif.NF.C46_encoders_partial",
    "Verif.NF.C46_eq_false"
   ],
   "note": "All algorithms, fallbacks and bounds; formulas with cardinality and pseudo-Boolean constraints anywhere, for any right encoder (C46_constraints_partial) and for the modelled encoders of C12-C16 with one counter and one encoding per constraint (C46_encoders_partial). Refuted where the encoders are wrong: the CNF of 0a+2b+3c=2 is false (C46_eq_false, from C16_eq_false)."
  },
  {
   "property": "C12",
   "status": "proved",
   "theorems": [
    "Verif.Enc.C12_amo",
    "Verif.Enc.C12_exo",
    "Verif.Enc.C12_terminates",
    "Verif.Enc.C12_diverges"
   ],
   "note": "All encoders, all group sizes, any number of variables; floats idealised as exact arithmetic. Recursion does not end for some configured sizes (C12_diverges)."
  },
  {
   "property": "C13",
   "status": "partial",
   "theorems": [
    "Verif.Enc.C13_encodeCC_partial",
    "Verif.Enc.C13_returns_partial",
    "Verif.Enc.C13_solver_false"
   ],
   "note": "All encoders, comparators and right-hand sides for the formula result. On a solver the zero literals left by clear() in directSorter break the network encoder (C13_solver_false). `< 0` is not modelled. Missing: the comparison `< 0`, which is not modelled (the encoder panics), and the result on a solver, where the claim is false."
  },
  {
   "property": "C14",
   "status": "proved",
   "theorems": [
    "Verif.Enc.C14_upper",
    "Verif.Enc.C14_lower",
    "Verif.Enc.C14_trivial"
   ],
   "note": "Any sequence of tightenings; formula result."
  },
  {
   "property": "C15",
   "status": "partial",
   "theorems": [
    "Verif.PB.C15_normalize_ineq",
    "Verif.PB.C15_normalize_partial",
    "Verif.PB.C15_eq_false",
    "Verif.PB.C15_negate"
   ],
   "note": "All inequalities; equations unless a zero coefficient precedes a nonzero one, where the code is wrong (C15_eq_false)."
  },
  {
   "property": "C16",
   "status": "partial",
   "theorems": [
    "Verif.PB.C16_encodePBC_partial",
    "Verif.PB.C16_encodePBC_ineq",
    "Verif.PB.C16_eq_false",
    "Verif.PB.C16_adder_false"
   ],
   "note": "All encoders and configurations for the formula result. False for equations with leading zero coefficients (C16_eq_false) and for adder networks with 32-bit right-hand sides (C16_adder_false)."
  },
  {
   "property": "C34",
   "status": "proved",
   "theorems": [
    "Verif.Transform.C34_substitute",
    "Verif.Transform.C34_error",
    "Verif.Transform.C34_vars",
    "Verif.Transform.C34_literals",
    "Verif.Transform.C34_anonymize",
    "Verif.Transform.C34_expand",
    "Verif.Transform.C34_expand_error"
   ],
   "note": "Integers unbounded."
  },
  {
   "property": "C35",
   "status": "proved",
   "theorems": [
    "Verif.Transform.C35_exists",
    "Verif.Transform.C35_forall",
    "Verif.Transform.C35_vars"
   ],
   "note": ""
  },
  {
   "property": "C38",
   "status": "proved",
   "theorems": [
    "Verif.Data.C38_sets"
   ],
   "note": "Store of aliased sets, any map iteration order."
  },
  {
   "property": "C39",
   "status": "partial",
   "theorems": [
    "Verif.Data.C39_queue",
    "Verif.Data.C39_grow_used_false",
    "Verif.Data.C39_heap_elements",
    "Verif.Data.C39_heap_max_partial",
    "Verif.Data.C39_heap_remove_false"
   ],
   "note": "Queue and heap contents for all histories; the maximum property holds without `remove` in the history, and is false after `remove` (C39_heap_remove_false). Growing a used queue breaks the sum (C39_grow_used_false)."
  },
  {
   "property": "C40",
   "status": "partial",
   "theorems": [
    "Verif.Graph.C40_components_partial",
    "Verif.Graph.C40_split_partial",
    "Verif.Graph.C40_count_partial",
    "Verif.Graph.C40_counter_partial"
   ],
   "note": "The DNNF counter and the CNF conversion enter as parameters with their specifications (C26, C08-C10). Missing: the DNNF counter is a hypothesis, C26 is not proved."
  },
  {
   "property": "C41",
   "status": "proved",
   "theorems": [
    "Verif.Func.C41_atoms",
    "Verif.Func.C41_nodes",
    "Verif.Func.C41_depth",
    "Verif.Func.C41_variables",
    "Verif.Func.C41_literals",
    "Verif.Func.C41_litProfile",
    "Verif.Func.C41_varProfile",
    "Verif.Func.C41_subNodes"
   ],
   "note": ""
  },
  {
   "property": "C28",
   "status": "partial",
   "theorems": [
    "Verif.Explain.C28_deletion",
    "Verif.Explain.C28_insertion_partial",
    "Verif.Explain.C28_complete",
    "Verif.Explain.C28_insertion_empty_false"
   ],
   "note": "Both algorithms, any handler, SAT calls as an oracle with the specification of C18. The insertion-based algorithm returns an empty MUS for an empty (satisfiable) list (C28_insertion_empty_false)."
  },
  {
   "property": "C29",
   "status": "partial",
   "theorems": [
    "Verif.Explain.C29_smus_partial"
   ],
   "note": "SAT solver and optimization as oracles with their specifications (C18, C48). Missing: the oracles are hypotheses, and C18 and C48 are themselves partial."
  },
  {
   "property": "C31",
   "status": "partial",
   "theorems": [
    "Verif.MaxSat.C31_loading_partial",
    "Verif.MaxSat.C31_falsum_false",
    "Verif.MaxSat.C31_repeated_false",
    "Verif.MaxSat.C31_soft",
    "Verif.MaxSat.C31_weight"
   ],
   "note": "Clauses without falsum and without a literal repeated by the unchecked Clause constructor; both exceptions are wrong in the code (C31_falsum_false, C31_repeated_false)."
  },
  {
   "property": "C42",
   "status": "proved",
   "theorems": [
    "Verif.MaxSat.C42_subsetSum",
    "Verif.MaxSat.C42_no_skip",
    "Verif.MaxSat.C42_ends",
    "Verif.MaxSat.C42_diverges"
   ],
   "note": "The raising loop does not end beyond the total weight (C42_diverges)."
  },
  {
   "property": "C43",
   "status": "partial",
   "theorems": [
    "Verif.MaxSat.C43_setCover_partial"
   ],
   "note": "MaxSAT solver as an oracle with its specification (C30). Missing: the MaxSAT solver is a hypothesis, C30 is not proved."
  },
  {
   "property": "C44",
   "status": "partial",
   "theorems": [
    "Verif.Predicate.C44_predicates_partial",
    "Verif.Predicate.C44_solver_partial"
   ],
   "note": "C44_predicates_partial: over any decision procedure. C44_solver_partial: on the modelled solver itself (C50), with the Plaisted-Greenbaum methods and the modelled encoders, for all choices of the heuristics. Missing: that there is an answer (partial correctness), and constraints for which an encoder is wrong (C50_eq_false)."
  },
  {
   "property": "C48",
   "status": "partial",
   "theorems": [
    "Verif.Opt.C48_optimum",
    "Verif.Opt.C48_result_model",
    "Verif.Opt.C48_unknown_false"
   ],
   "note": "The value is optimal in all cases; the returned model lacks literals whose variables the solver did not know (C48_unknown_false)."
  },
  {
   "property": "C17",
   "status": "proved",
   "theorems": [
    "Verif.Sat.C17",
    "Verif.Sat.C17_learnt"
   ],
   "note": "Core solver with clauses and native at-most clauses over distinct variables (with these not ClauseMinBasic, see C18_atMost_false; the property speaks of clauses only). Partial correctness: runs that end."
  },
  {
   "property": "C18",
   "status": "partial",
   "theorems": [
    "Verif.Sat.C18_partial",
    "Verif.Sat.C18_iff_partial",
    "Verif.Sat.C18_atMost_false"
   ],
   "note": "All histories of NewVar, AddClause, addAtMost, Solve with assumptions, SaveState, LoadState; all choices of the heuristics; all three minimisation methods without at-most clauses, and ClauseMinNone and ClauseMinDeep with them; partial correctness. Refuted with at-most clauses and ClauseMinBasic: a wrong clause is learnt and a later answer is wrong (C18_atMost_false). The handler does not cancel at conflicts; the literals of an at-most clause are distinct. The step from formulas to clauses is C50."
  },
  {
   "property": "C19",
   "status": "partial",
   "theorems": [
    "Verif.Sat.C19_partial",
    "Verif.Sat.C19_records_partial",
    "Verif.Sat.C19_trivial_partial",
    "Verif.Sat.C19_no_panic",
    "Verif.Sat.C19_core_false",
    "Verif.Drup.C19_call_partial"
   ],
   "note": "Proved for the conflict of the core solver (analyzeFinal), and for the propositions of the unsat core including the DRUP check if the literals are passed in the order of their handles. False of the code in other orders: the propositions are not sorted with their literals, so the core may be satisfiable (C19_core_false). Missing: that the DRUP check accepts the traces of the solver."
  },
  {
   "property": "C52",
   "status": "proved",
   "theorems": [
    "Verif.Drup.C19_drup",
    "Verif.Drup.C19_drup_trivial",
    "Verif.Drup.C19_core",
    "Verif.Drup.C19_core_total"
   ],
   "note": "Any original clauses, any trace, any hash function. The check ends in a panic for a wrong trace; panics by arrays that are too short are not modelled."
  },
  {
   "property": "C20",
   "status": "partial",
   "theorems": [
    "Verif.Sat.C20_partial",
    "Verif.Sat.C20_same_partial",
    "Verif.Sat.C20_clauses_partial",
    "Verif.Sat.C20_error_partial"
   ],
   "note": "All interleavings, nested states, also with native at-most clauses over distinct literals (then not ClauseMinBasic, C18_atMost_false). Partial correctness. Missing: at-most clauses with repeated literals, where removeWatcher deletes while it ranges over the list; the step from formulas to clauses is C50."
  },
  {
   "property": "C21",
   "status": "partial",
   "theorems": [
    "Verif.Sat.C21_partial",
    "Verif.Sat.C21_false",
    "Verif.Sat.C17",
    "Verif.Sat.C18_partial",
    "Verif.Sat.C20_partial"
   ],
   "note": "Cancellation at the start and the end of a call is harmless; cancellation at a conflict makes later answers wrong (C21_false)."
  },
  {
   "property": "C22",
   "status": "partial",
   "theorems": [
    "Verif.Sat.C22_partial",
    "Verif.Sat.C22_restores_partial"
   ],
   "note": "Any history, any requested variables, all three sorts; the state before the call is restored. Core solver, also with native at-most clauses (isUnit for them is modelled); partial correctness. Missing: at-most clauses together with ClauseMinBasic, where solver answers are wrong (C18_atMost_false), and at-most clauses with repeated literals."
  },
  {
   "property": "C23",
   "status": "proved",
   "theorems": [
    "Verif.Bdd.C23_canonical"
   ],
   "note": "All histories of Compile, CompileLiterals, And/Or/Implies/Equivalence, Negate, Restrict, Exists, ForAll, ModelCount, PathCount on a kernel incl. garbage collection, table growth, caches and reference counts; handles that are referenced or were just returned. Without reordering of variables."
  },
  {
   "property": "C24",
   "status": "partial",
   "theorems": [
    "Verif.Bdd.C24_partial",
    "Verif.Bdd.C24_restrict_false",
    "Verif.Bdd.C24_noLiterals_false"
   ],
   "note": "All histories. Right function for all operations when they return and for referenced BDDs for ever; results of Restrict/Exists/ForAll are not referenced and can be overwritten later (C24_restrict_false)."
  },
  {
   "property": "C25",
   "status": "partial",
   "theorems": [
    "Verif.Bdd.C25_partial",
    "Verif.Bdd.C25_false"
   ],
   "note": "Right if all BDDs counted before were constant or had the first variable at the root; otherwise a second count is wrong (C25_false)."
  },
  {
   "property": "C49",
   "status": "partial",
   "theorems": [
    "Verif.Bdd.C49_false"
   ],
   "note": "Refuted: shared nodes make the count too large."
  },
  {
   "property": "C53",
   "status": "partial",
   "theorems": [
    "Verif.Bdd.C53_reorder_partial",
    "Verif.Bdd.C53_sequence_partial",
    "Verif.Bdd.C53_false"
   ],
   "note": "Any history of kernel calls followed by any sequence of reorderings (moves by one level in any order, swaps of any two variables): they end without panic, the order stays a permutation, the table canonical, every BDD referenced before a reordering has its function after it, literals keep function and reference for ever. Refuted: a BDD that is part of a held BDD with smaller index loses its reference (reorderDone unmarks recursively) and a later reordering frees it (C53_false). Missing: other kernel calls between reorderings, variable blocks, reordering during construction; the choice of moves by the reordering methods is any choice."
  },
  {
   "property": "C54",
   "status": "proved",
   "theorems": [
    "Verif.Bdd.C54_normalForms",
    "Verif.Bdd.C54_formula",
    "Verif.Bdd.C54_enumeration",
    "Verif.Bdd.C54_counts",
    "Verif.Bdd.C54_order"
   ],
   "note": "Any history of kernel calls, then no or one reordering; any order of variables. Models are lists of literals in the order of the given variables."
  },
  {
   "property": "C32",
   "status": "partial",
   "theorems": [
    "Verif.Io.C32_roundtrip",
    "Verif.Io.C32_format",
    "Verif.Io.C32_notCNF",
    "Verif.Io.C32_malformed_partial",
    "Verif.Io.C32_malformed_false"
   ],
   "note": "Round trip proved on the level of characters for all CNFs incl. constants, all orders of the sets, all prefixes; lines beyond the limit of the scanner are reported. Malformed lines: only a missing final 0 is reported, other malformed lines are accepted (C32_malformed_false)."
  },
  {
   "property": "C37",
   "status": "partial",
   "theorems": [
    "Verif.Prime.C37_cover",
    "Verif.Prime.C37_terminates",
    "Verif.Prime.C37_succeeds",
    "Verif.Prime.C37_minimum_partial",
    "Verif.Prime.C37_minimum_false"
   ],
   "note": "Covers (CoverMin, CoverMax, both cover sorts, any handler): all results prime, the chosen side complete, both sides equivalent to the formula, termination; proved over solvers specified as in C18 and C48. Minimum: an implicant, error iff unsatisfiable (formulas without constraints), but not prime in general: refuted by C37_minimum_false for every correct solver."
  },
  {
   "property": "C27",
   "status": "partial",
   "theorems": [
    "Verif.Enum.C27_enumeration",
    "Verif.Enum.C27_sound",
    "Verif.Enum.C27_terminates_partial",
    "Verif.Enum.C27_terminates_nosplit",
    "Verif.Enum.C27_diverges",
    "Verif.Enum.C27_cancel_false",
    "Verif.Enum.C27_additional_false",
    "Verif.Enum.C27_success",
    "Verif.Enum.C27_once_false"
   ],
   "note": "Every correct solver, every split strategy choosing among the variables, unknown and additional variables, recursion with save/load of the solver state: exactly the projected models, each once, and their number; under cancellation still sound and duplicate free. Termination: without splits, and with BasicStrategy if all variables are known; refuted otherwise (C27_diverges). With a handler that stays cancelled once it is (time-outs), reported success means that all models are there (C27_success); with other handlers success is also reported after a cancelled call or a cancelled recursion (C27_cancel_false, C27_once_false)."
  },
  {
   "property": "C36",
   "status": "partial",
   "theorems": [
    "Verif.Simpl.C36_distribute",
    "Verif.Simpl.C36_factorOut",
    "Verif.Simpl.C36_negations",
    "Verif.Simpl.C36_negations_pb_partial",
    "Verif.Simpl.C36_backbone",
    "Verif.Simpl.C36_backbone_rest",
    "Verif.Simpl.C36_cnf_subsumption",
    "Verif.Simpl.C36_dnf_subsumption",
    "Verif.Simpl.C36_qmc",
    "Verif.Simpl.C36_advanced",
    "Verif.Simpl.C36_units_cnf",
    "Verif.Simpl.C36_units",
    "Verif.Simpl.C36_negations_false"
   ],
   "note": "All formulas, configurations, ratings and handlers; factory shaped (flat) trees. QMC gives a DNF with the fewest terms. Backbone, prime implicants and SMUS by solvers specified as in C18, C22, C29, C37, C48. Unit propagation (on the core solver model) is equivalent to the CNF it works on, so equivalent to the formula up to auxiliary variables of the CNF; runs that end. MinimizeNegations with constraints is not an equivalence (C36_negations_false): encodings with auxiliary variables get into the result."
  },
  {
   "property": "C50",
   "status": "partial",
   "theorems": [
    "Verif.Solver.C50_partial",
    "Verif.Solver.C50_call_partial",
    "Verif.Solver.C50_load_partial",
    "Verif.Solver.C50_restores_partial",
    "Verif.Solver.C50_no_panic_partial",
    "Verif.Solver.C50_constraints_partial",
    "Verif.Solver.C50_constraints_load_partial",
    "Verif.Solver.C50_constraints_no_panic_partial",
    "Verif.Solver.C50_encoders_partial",
    "Verif.Solver.C50_atMost_false",
    "Verif.Solver.C50_eq_false"
   ],
   "note": "All histories, both Plaisted-Greenbaum methods and CNFFactory; constraints at the top of formulas by any exact encoder (C12-C16) or, with UseAtMostClauses, as native at-most clauses over distinct variables; constraints anywhere inside formulas with the Plaisted-Greenbaum methods (C50_constraints_partial, with the modelled encoders C50_encoders_partial). Refuted for UseAtMostClauses with ClauseMinBasic (C50_atMost_false) and where an encoder is wrong (C50_eq_false). Missing: constraints inside formulas with CNFFactory, and proof tracing. Partial correctness: runs that end; the handler does not cancel at a conflict (C21)."
  },
  {
   "property": "C51",
   "status": "partial",
   "theorems": [
    "Verif.Factory.C51_partial",
    "Verif.Factory.C51_other_partial",
    "Verif.Factory.C51_interning_false",
    "Verif.Factory.C51_operands_false",
    "Verif.Factory.C51_unique_false"
   ],
   "note": "Truth values are kept for every handle and every sequence of additions; nothing changes for formulas that do not become at-most clauses. The rest is false: with UseAtMostClauses the literals of the constraint are sorted inside the factory, so the same CC call gives another handle afterwards (C51_interning_false), operands change (C51_operands_false), and two handles may stand for the same constraint (C51_unique_false)."
  },
  {
   "property": "C33",
   "status": "partial",
   "theorems": [
    "Verif.Parser.C33_equivalent_partial",
    "Verif.Parser.C33_factory_partial",
    "Verif.Parser.C33_identical_partial",
    "Verif.Parser.C33_handle_partial",
    "Verif.Parser.sprint_injective_partial",
    "Verif.Parser.C33_numeric_false",
    "Verif.Parser.C33_numeric_panics",
    "Verif.Parser.C33_lt0_false",
    "Verif.Parser.C33_garbage"
   ],
   "note": "All formulas of all factories over the names of the grammar, default symbols; printer, lexer, grammar and listener are modelled on characters. Refuted, with witnesses: constraints over variables named by numbers (misread, or panic); identity for CC(LT, 0). The ANTLR runtime is replaced by longest-match lexing and recursive descent; its error recovery is not modelled."
  },
  {
   "property": "C26",
   "status": "partial",
   "theorems": [
    "Verif.Dnnf.C26_count_partial",
    "Verif.Dnnf.C26_compiled_partial",
    "Verif.Dnnf.C26_deterministic",
    "Verif.Dnnf.C26_units",
    "Verif.Dnnf.C26_leaf",
    "Verif.Dnnf.C26_tree",
    "Verif.Dnnf.C26_false",
    "Verif.Dnnf.C26_lost",
    "Verif.Dnnf.C26_false2",
    "Verif.Dnnf.C26_decomposable_false"
   ],
   "note": "The property is false: a formula with 8 models is compiled to a deterministic and decomposable formula with 6 (C26_false); a second one gives 27 instead of 29; a third is compiled to an equivalent formula that is not decomposable, with 13 instead of 11. Proved for all inputs, caches and heuristics: ModelCount of every deterministic and decomposable formula is its number of models; every compiled formula is deterministic, so that the count is right whenever the result is decomposable and equivalent; the formulas of the leaves are right; the generated tree has exactly the clauses as its leaves. Solver, tree, cache and compiler are modelled function by function."
  },
  {
   "property": "C45",
   "status": "partial",
   "theorems": [
    "Verif.MaxAlg.C45_state_partial",
    "Verif.MaxAlg.C45_history_partial",
    "Verif.MaxAlg.C45_oll_partial",
    "Verif.MaxAlg.history_total",
    "Verif.MaxAlg.Srch.linearUS_ok",
    "Verif.MaxAlg.linearSU_ok",
    "Verif.MaxAlg.msu3_ok",
    "Verif.MaxAlg.linearUS_ok",
    "Verif.MaxAlg.wboUnit_ok",
    "Verif.MaxAlg.incWboUnit_ok",
    "Verif.MaxAlg.C45_cancelled_false",
    "Verif.MaxAlg.C45_finish_false",
    "Verif.MaxAlg.C45_wmsu3_false"
   ],
   "note": "All histories of adding formulas, saving and loading states and Solve calls, which may be cancelled except at the finish event; Solve is right unless a call was cancelled since the last change. Refuted, with witnesses: Solve after a cancelled call returns the empty result; after a call cancelled at the finish event LinearUS returns a wrong optimum; WMSU3 panics in the second Solve. Missing: these cases; what OLL, WBO, IncWBO, MSU3 and LinearSU leave behind is any change within the frame."
  },
  {
   "property": "C30",
   "status": "partial",
   "theorems": [
    "Verif.MaxAlg.C30_linearUS",
    "Verif.MaxAlg.C30_msu3",
    "Verif.MaxAlg.C30_wmsu3",
    "Verif.MaxAlg.C30_oll",
    "Verif.MaxAlg.C30_wbo_partial",
    "Verif.MaxAlg.C30_wbo_symmetry_false",
    "Verif.MaxAlg.C30_incwbo_partial",
    "Verif.MaxAlg.C30_incwbo_symmetry_false",
    "Verif.MaxAlg.C30_linearSU_partial",
    "Verif.MaxAlg.C30_linearSU_false",
    "Verif.MaxAlg.C30_wmsu3_none_partial",
    "Verif.MaxAlg.C30_wmsu3_none_false",
    "Verif.MaxAlg.C30_wmsu3_none_loops",
    "Verif.MaxAlg.exists_ok"
   ],
   "note": "LinearUS and MSU3 with both incremental strategies, WMSU3 with the incremental strategy (both modes), OLL (unweighted and weighted): proved for every problem, every right SAT solver and every handler (the search ends, and reports the optimum with a model attaining it, or unsatisfiable, or was cancelled). LinearSU: every reported cost is that of the reported model; least for unweighted problems, lexicographic weights in that mode, and weights where no bound leaves exactly one soft clause; false otherwise (C30_linearSU_false: enc_swc.go:62-65 excludes the last literal). WMSU3 without incremental strategy: reported costs belong to the reported models; it may report a cost that is not least (C30_wmsu3_none_false) and may not end (C30_wmsu3_none_loops). WBO and IncWBO (normal and stratified search): proved without symmetry clauses, and with them for equal weights; with symmetry clauses (the default) and different weights they may report a cost that is not least (C30_wbo_symmetry_false, C30_incwbo_symmetry_false). All seven searches are modelled; the full statement is false for four of them. The SAT solver is an oracle with the properties of C18 and C19."
  },
  {
   "property": "C55",
   "status": "partial",
   "theorems": [
    "Verif.Bdd.C55_model",
    "Verif.Bdd.C55_modelVars",
    "Verif.Bdd.C55_fullModel_partial",
    "Verif.Bdd.C55_support",
    "Verif.Bdd.C55_full_false"
   ],
   "note": "FullModel also has a literal of a variable with the empty name for each variable of the kernel without a name (C55_full_false); otherwise exact. ModelWithVariables only in kernels without reorderings."
  },
  {
   "property": "C56",
   "status": "proved",
   "theorems": [
    "Verif.Gen.C56_pigeon_means",
    "Verif.Gen.C56_pigeon_unsat",
    "Verif.Gen.C56_pigeon_tight_pigeon",
    "Verif.Gen.C56_pigeon_tight_hole",
    "Verif.Gen.C56_queens"
   ],
   "note": "All sizes. Names of variables are an injective function of their number."
  },
  {
   "property": "C57",
   "status": "partial",
   "theorems": [
    "Verif.Enum.C57_cnf",
    "Verif.Enum.C57_dnf",
    "Verif.Enum.C57_unique",
    "Verif.Enum.C57_returns",
    "Verif.Enum.C57_handler",
    "Verif.Enum.C57_cancel_false"
   ],
   "note": "Exact if nothing is cancelled. With a handler that cancels a single call of the solver the result is wrong though the state is a success (C57_cancel_false, the defect of C27). The solver is any one that carries the formula (C50)."
  },
  {
   "property": "C58",
   "status": "partial",
   "theorems": [
    "Verif.Order.C58_bfs",
    "Verif.Order.C58_dfs",
    "Verif.Order.C58_profile",
    "Verif.Order.C58_occurrence_perm",
    "Verif.Order.C58_minToMax_partial",
    "Verif.Order.C58_maxToMin_partial",
    "Verif.Order.C58_force_partial",
    "Verif.Order.C58_force_returns_false"
   ],
   "note": "ForceOrder does not return for every formula: on a CNF with five variables it alternates between two orderings for ever (C58_force_returns_false); if it returns the result is complete. The order of MinToMaxOrder and MaxToMinOrder is proved for at most 12 variables, for which sort.Slice is an insertion sort; for more the comparison depends on the positions of the elements and only the permutation is proved."
  },
  {
   "property": "C59",
   "status": "partial",
   "theorems": [
    "Verif.Bdd.C59_normalForm_partial",
    "Verif.Bdd.C59_returns_partial",
    "Verif.Bdd.C59_returns_false",
    "Verif.Simpl.C36_units_shape"
   ],
   "note": "What is returned is right. A result is not returned for every formula: the ordering may not be found (C59_returns_false, the defect of C58). Termination of the unit propagation is a hypothesis of C59_returns_partial."
  },
  {
   "property": "C60",
   "status": "partial",
   "theorems": [
    "Verif.Enum.C60_varOccurrences",
    "Verif.Enum.C60_choose",
    "Verif.Enum.C60_deterministic",
    "Verif.Enum.C60_default_size",
    "Verif.Enum.C60_basic_enumerates",
    "Verif.Enum.C60_default_enumerates",
    "Verif.Enum.C60_nosplit_enumerates",
    "Verif.Enum.C60_negative_false",
    "Verif.Enum.C60_fixed_false"
   ],
   "note": "Occurrences and choice are right in full. A negative maximum is accepted and panics (C60_negative_false); a fixed provider with variables that are not enumerated makes models appear repeatedly (C60_fixed_false); with splits the variables must be known to the solver (C27_diverges)."
  },
  {
   "property": "C61",
   "status": "partial",
   "theorems": [
    "Verif.Sat.C61_partial",
    "Verif.Sat.C61_assigned_partial",
    "Verif.Sat.C61_load_false"
   ],
   "note": "In full for histories without LoadState (C61_partial), and for all histories whenever each variable of level 0 has a value (C61_assigned_partial). False after LoadState: completeBacktrack leaves the levels (C61_load_false)."
  },
  {
   "property": "C62",
   "status": "partial",
   "theorems": [
    "Verif.Enum.C62_sound",
    "Verif.Enum.C62_bdd",
    "Verif.Enum.C62_returns",
    "Verif.Enum.C62_nosplit",
    "Verif.Enum.C62_success",
    "Verif.Enum.C62_start",
    "Verif.Enum.C62_cancel_false"
   ],
   "note": "Sound for every handler; exact and canonical if nothing is cancelled; a BDD whenever the iteration ends. Exact on success also for every handler that stays cancelled once it is (C62_success). False for other handlers: a cancelled call of the solver is reported as success with an incomplete BDD (C62_cancel_false). The answers of the solver are those of C18."
  },
  {
   "property": "C63",
   "status": "proved",
   "theorems": [
    "Verif.Bitset.C63_new",
    "Verif.Bitset.C63_set",
    "Verif.Bitset.C63_or",
    "Verif.Bitset.C63_and",
    "Verif.Bitset.C63_clear",
    "Verif.Bitset.C63_cardinality",
    "Verif.Bitset.C63_next",
    "Verif.Bitset.C63_array",
    "Verif.Bitset.C63_slice",
    "Verif.Bitset.C63_comp",
    "Verif.Bitset.C63_comp_order",
    "Verif.Bitset.C63_length_false"
   ],
   "note": "Indices are natural numbers, without the overflow of 32 bits. C63_length_false: equal sets with different numbers of words compare as different, and empty sets have different slices."
  },
  {
   "property": "C64",
   "status": "partial",
   "theorems": [
    "Verif.Randomizer.C64_depth",
    "Verif.Randomizer.C64_sort",
    "Verif.Randomizer.C64_nodes",
    "Verif.Randomizer.C64_literal",
    "Verif.Randomizer.C64_set",
    "Verif.Randomizer.C64_nopanic",
    "Verif.Randomizer.C64_seed",
    "Verif.Randomizer.C64_panic_false",
    "Verif.Randomizer.C64_not_false",
    "Verif.Randomizer.C64_pbc_false",
    "Verif.Randomizer.C64_ops_false",
    "Verif.Randomizer.C64_weight_false",
    "Verif.Randomizer.C64_seed_false"
   ],
   "note": "Depth, sorts, variables, weights for every configuration and stream; no panic for usable configurations; dependence on the seed alone without cardinality constraints. False: a maximum of two operands panics, Not and PBC may never return, operands exceed the maximum by flattening, exactly-one constraints of weight 0, the order of a map with cardinality constraints. Weights are compared exactly (no rounding)."
  },
  {
   "property": "C65",
   "status": "partial",
   "theorems": [
    "Verif.Wcnf.C65_read",
    "Verif.Wcnf.C65_names",
    "Verif.Wcnf.C65_header_false",
    "Verif.Wcnf.C65_panic_false",
    "Verif.Wcnf.C65_comment_false",
    "Verif.Wcnf.C65_zero_false",
    "Verif.Wcnf.C65_silent_false",
    "Verif.Wcnf.C65_long_false",
    "Verif.Wcnf.C65_names_false"
   ],
   "note": "Every properly written problem with lines below the limit of the scanner is read exactly, on the level of characters. False: malformed files are not reported but misread (two blanks in the header, missing zero, no header, long lines), or make the reader panic; comments after the header are errors; names beyond 2^53 coincide."
  },
  {
   "property": "C66",
   "status": "partial",
   "theorems": [
    "Verif.FormulaFile.C66_equivalent_partial",
    "Verif.FormulaFile.C66_identical_partial",
    "Verif.FormulaFile.C66_injective_partial",
    "Verif.FormulaFile.C66_lines",
    "Verif.FormulaFile.C66_panic_false",
    "Verif.FormulaFile.C66_blank",
    "Verif.FormulaFile.C66_garbage_false",
    "Verif.FormulaFile.C66_names_false",
    "Verif.FormulaFile.C66_newline_false"
   ],
   "note": "Writing and reading returns the same formula for every formula of the factory whose names the parser accepts, without constraints of the form ... < 0 built as cardinality constraints; an equivalent one for every printable formula; an error exactly for lines at the limit. False: a malformed line panics instead of an error, text after a formula is lost silently, names that are no identifiers are misread or split into lines."
  },
  {
   "property": "C67",
   "status": "partial",
   "theorems": [
    "Verif.Graphical.C67_ast",
    "Verif.Graphical.C67_tree",
    "Verif.Graphical.C67_dag_partial",
    "Verif.Graphical.C67_terminal",
    "Verif.Graphical.C67_styles",
    "Verif.Graphical.C67_label_false"
   ],
   "note": "Tree and graph show the formula for every formula and generator. False: the graph ignores a configured label function for literals (C67_label_false), so the theorem on the graph requires one that gives literals their default labels."
  },
  {
   "property": "C68",
   "status": "partial",
   "theorems": [
    "Verif.AsgHandles.C68_new",
    "Verif.AsgHandles.C68_values",
    "Verif.AsgHandles.C68_roundtrip",
    "Verif.AsgHandles.C68_model",
    "Verif.AsgHandles.C68_sprint",
    "Verif.AsgHandles.C68_negVars_false"
   ],
   "note": "Everything but NegVars of assignments, which returns the handles of the negative literals as variables: nothing it returns is a variable (C68_negVars_false, for every assignment). FromAssignment is right nevertheless."
  },
  {
   "property": "C69",
   "status": "proved",
   "theorems": [
    "Verif.Bdd.C69_nodes",
    "Verif.Bdd.C69_graph",
    "Verif.Bdd.C69_styles"
   ],
   "note": "For every BDD that may be read after any sequence of kernel calls and one reordering. A pointer is a position in the list of nodes; the text written from a drawing is not modelled."
  },
  {
   "property": "C70",
   "status": "partial",
   "theorems": [
    "Verif.Dot.C70_dot_partial",
    "Verif.Dot.C70_content",
    "Verif.Dot.C70_quote_false"
   ],
   "note": "C70_content for all drawings. C70_dot_partial for labels and colors without quotes and ends of lines and ids without spaces (the ids of the generators are id and a number). False otherwise: quotes in labels are not escaped (C70_quote_false)."
  },
  {
   "property": "C71",
   "status": "partial",
   "theorems": [
    "Verif.Dot.C71_mermaid_partial",
    "Verif.Dot.C71_content",
    "Verif.Dot.C71_links",
    "Verif.Dot.C71_colors",
    "Verif.Dot.C71_quote_false",
    "Verif.Dot.C71_comma_false"
   ],
   "note": "C71_content, C71_links and C71_colors for all drawings. C71_mermaid_partial for labels without quotes, colors without commas, no ends of lines, and ids without spaces and opening brackets (the ids of the generators are id and a number). False otherwise (C71_quote_false, C71_comma_false)."
  },
  {
   "property": "C72",
   "status": "proved",
   "theorems": [
    "Verif.Graph.C72_graph",
    "Verif.Graph.C72_drawing"
   ],
   "note": "For all sequences of calls on a new graph. Formulas are compared by equality, as the handles are; ids of nodes are their numbers; labels and styles are arbitrary functions of the formulas."
  },
  {
   "property": "C73",
   "status": "proved",
   "theorems": [
    "Verif.Dot.C73_rgb",
    "Verif.Dot.C73_clean"
   ],
   "note": "For all integers."
  },
  {
   "property": "C74",
   "status": "proved",
   "theorems": [
    "Verif.PropOrder.C74_order",
    "Verif.PropOrder.C74_deterministic"
   ],
   "note": "slices.SortFunc is specified as any function that returns a sorted permutation; Formula.String is an arbitrary function of the handle."
  },
  {
   "property": "C75",
   "status": "proved",
   "theorems": [
    "Verif.Terms.C75_minterm",
    "Verif.Terms.C75_maxterm",
    "Verif.Terms.C75_contains"
   ],
   "note": "On formulas as trees (see C01 for the handles of the factory)."
  }
 ]
}