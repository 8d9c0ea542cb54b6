{"id": "C01", "title": "Hash-consing: one handle per formula", "statement": "On one factory, building the same formula twice (same constructor, same arguments) always returns the identical handle, and two handles returned by the factory that are different never stand for the same constructor applied to the same operands, as long as fewer than 2^27 formula ids were handed out.", "quantifier": "every finite sequence of factory constructor calls (Var, Lit, Not, Implication, Equivalence, And, Or, Minterm, Clause, CC, PBC) on one factory, for both values of the conserveVars option", "why_tests_cant": "it is a statement about every history of calls, including hash collisions and interleavings of simplifying and non-simplifying constructors; tests only sample a few short histories", "anchors": ["formula/factory.go: CachingFactory.And, Or, Not, Implication, Equivalence, Lit, CC, PBC, findAnd, findOr, nextPosId", "formula/formula.go: EncodeFormula, Formula.Sort, Formula.ID"]}
{"id": "C02", "title": "Constructors mean what they say", "statement": "The formula returned by a factory constructor has, under every assignment, exactly the truth value of the corresponding connective applied to the truth values of its arguments (And = conjunction, Or = disjunction, Not, Implication, Equivalence, CC/PBC = arithmetic comparison), no matter which simplification or cache lookup produced it.", "quantifier": "every reachable factory state, every list of operands, every assignment of the variables, both conserveVars settings", "why_tests_cant": "the result depends on the whole construction history through four levels of caches; the input space (history x operands x assignment) is infinite", "anchors": ["formula/factory.go: And, Or, Minterm, Clause, Not, Implication, Equivalence, condenseOperandsAnd, condenseOperandsOr, addFormulaAnd, addFormulaOr, containsComplement, PBC, constructCC, evaluateTrivialPBConstraint"]}
{"id": "C03", "title": "Formulas are immutable", "statement": "Once a handle has been returned, no later factory call changes its sort, its operands or its truth value under any assignment.", "quantifier": "every factory history, every handle returned in it, every later sequence of calls", "why_tests_cant": "requires quantifying over all futures of all histories", "anchors": ["formula/factory.go: CachingFactory maps literals/nots/implications/equivalences/ands/ors/ccs/pbcs", "formula/factory.go: Operands, NaryOperands, BinaryLeftRight, NotOperand, PBCOps"]}
{"id": "C04", "title": "Negation is an involution on handles", "statement": "Not(Not(f)) returns the very handle f for every formula f of the factory, and Not(f) is never equal to f; for literals the same holds for Negate, which keeps the variable and flips the phase.", "quantifier": "every reachable factory state and every formula handle in it", "why_tests_cant": "must hold for every formula ever constructed, including ones whose negation was created before or after other ids were handed out (id parity bookkeeping)", "anchors": ["formula/factory.go: Not, Lit, negId, nextPosId", "formula/formula.go: Formula.Negate, Literal.Negate, Literal.Variable"]}
{"id": "C05", "title": "Shape guarantee of And/Or", "statement": "If And (Or) returns a conjunction (disjunction) then it has at least two operands; if the history never used Minterm/Clause, then additionally no operand is a constant or again a conjunction (disjunction), no operand occurs twice and (without conserveVars) no operand is the negation of another.", "quantifier": "every factory history and every operand list", "why_tests_cant": "the shape invariant is established incrementally over all histories and relied upon by every algorithm; a test can only look at particular formulas", "anchors": ["formula/factory.go: And, Or, condenseOperandsAnd, condenseOperandsOr, addFormulaAnd, addFormulaOr"]}
{"id": "C06", "title": "Evaluation and restriction agree", "statement": "Evaluate returns the truth value of the formula with unassigned variables taken as false; Restrict returns a formula that has, under every total assignment extending the partial one, the same truth value as the original, and that contains none of the assigned variables.", "quantifier": "every formula (including cardinality and pseudo-Boolean constraints) and every partial assignment", "why_tests_cant": "formulas and assignments are unbounded; the PB branch uses min/max sums whose correctness is arithmetic over all coefficient vectors", "anchors": ["assignment/evaluate.go: Evaluate, evaluateCoeffs", "assignment/restrict.go: Restrict", "assignment/assignment.go: Assignment.AddLit, EvaluateLit"]}
{"id": "C07", "title": "Early evaluation is sound", "statement": "EvaluatesToTrue (EvaluatesToFalse) answers yes only if the formula is true (false) under every completion of the given partial assignment.", "quantifier": "every formula and every partial assignment", "why_tests_cant": "soundness is a universally quantified statement over all completions; tests check chosen formulas", "anchors": ["assignment/evaluate_to_constant.go: EvaluatesToTrue, EvaluatesToFalse"]}
{"id": "C08", "title": "NNF keeps the meaning and reaches the form", "statement": "NNF(f) has the same truth value as f under every assignment and contains no implication, equivalence or negation of a non-literal, for every f without cardinality/pseudo-Boolean constraints.", "quantifier": "every formula without PB constraints, every assignment", "why_tests_cant": "the transformation is recursive over arbitrary formulas; equivalence over all assignments and all nesting depths cannot be enumerated", "anchors": ["normalform/nnf.go: NNF"]}
{"id": "C09", "title": "CNF/DNF by factorization is equivalent and in normal form", "statement": "CNF by factorization (and dually DNF) returns a formula that is in conjunctive (disjunctive) normal form and equivalent to the input whenever it is not cancelled; a cancelled run never reports success.", "quantifier": "every formula without PB constraints, every assignment, every cancellation point of the handler", "why_tests_cant": "quantifies over formulas, assignments and cancellation schedules", "anchors": ["normalform/cnf.go: FactorizedCNF, FactorizedCNFWithHandler", "normalform/dnf.go: FactorizedDNF", "normalform/nnf.go: IsNNF; normalform/cnf.go: IsCNF; normalform/dnf.go: IsDNF"]}
{"id": "C10", "title": "Tseitin CNF is equisatisfiable with unique extensions", "statement": "Every model of f extends to exactly one assignment of the auxiliary variables satisfying TseitinCNF(f), and every model of TseitinCNF(f) restricted to the variables of f is a model of f; so satisfiability and the number of models are preserved.", "quantifier": "every formula without PB constraints, every assignment of original and auxiliary variables, every state of a reused cache", "why_tests_cant": "the claim is about all assignments over an unbounded number of auxiliary variables", "anchors": ["normalform/cnf.go: TseitinCNF, computeTseitin, handleNary, CNFAuxState"]}
{"id": "C11", "title": "Plaisted-Greenbaum CNF is equisatisfiable and projects correctly", "statement": "The set of models of PGCNF(f), projected to the variables of f, is exactly the set of models of f.", "quantifier": "every formula without PB constraints, every assignment", "why_tests_cant": "polarity-dependent encodings are notoriously wrong only on deep nestings of mixed polarity, an unbounded space", "anchors": ["normalform/cnf.go: PGCNF", "sat/pg_on_solver.go: addCNFToSolver"]}
{"id": "C12", "title": "At-most-one encodings are exact", "statement": "For each offered AMO encoding, an assignment of the encoded variables sets at most one of them to true if and only if it can be extended to the auxiliary variables so that all produced clauses hold.", "quantifier": "every number of variables, every assignment, every admissible group size / recursion bound", "why_tests_cant": "exactness must hold for all n and all 2^n assignments", "anchors": ["encoding/amo.go: amoPure, amoLadder, amoProduct, amoNested, amoCommander, amoBinary, amoBimander"]}
{"id": "C13", "title": "At-most-k / at-least-k / exactly-k encodings are exact", "statement": "For the totalizer, modular totalizer and cardinality-network encodings, an assignment of the encoded variables satisfies the cardinality constraint if and only if it can be extended to the auxiliary variables so that all produced clauses hold.", "quantifier": "every number of variables, every bound k, every assignment", "why_tests_cant": "unbounded n, k and assignments; off-by-one errors at the bounds are invisible for most inputs", "anchors": ["encoding/cc_totalizer.go", "encoding/cc_modular_totalizer.go", "encoding/cc_cardinality_network.go", "encoding/cc_encoding.go: EncodeCC"]}
{"id": "C14", "title": "Incremental cardinality bounds", "statement": "Tightening the bound of an already encoded at-most-k or at-least-k constraint through the incremental data yields exactly the constraint with the new bound.", "quantifier": "every n, every initial bound, every sequence of tightened bounds, every assignment", "why_tests_cant": "histories of bound updates are unbounded", "anchors": ["encoding/cc_incremental_data.go: CCIncrementalData.NewUpperBound, NewLowerBound"]}
{"id": "C15", "title": "Pseudo-Boolean normalization preserves the constraint", "statement": "Normalizing a PB constraint (removing zero coefficients, flipping negative ones, merging duplicate and complementary literals, dividing by the gcd) to <=-constraints with positive coefficients yields constraints whose conjunction holds under exactly the same assignments.", "quantifier": "every comparator, right-hand side, literal list and coefficient list (zero, negative, repeated literals), every assignment", "why_tests_cant": "arithmetic statement over unbounded integers and lists", "anchors": ["encoding/normalize.go: Normalize, normalizeLE"]}
{"id": "C16", "title": "Pseudo-Boolean encodings are exact", "statement": "For the sequential weight counter, binary-merge and adder-network encodings, an assignment satisfies the normalized PB constraint if and only if it extends to the auxiliary variables so that all clauses hold.", "quantifier": "every list of positive coefficients, every bound, every assignment", "why_tests_cant": "unbounded coefficients, lengths and assignments", "anchors": ["encoding/pbc_swc.go", "encoding/pbc_binary_merge.go", "encoding/pbc_adder.go", "encoding/pbc_encoding.go: EncodePBC"]}
{"id": "C17", "title": "Adding clauses to the solver preserves their models", "statement": "Adding a clause to the SAT solver (with its removal of duplicate, false and complementary literals, unit propagation and conflict flag) never changes the set of models of the added clauses.", "quantifier": "every sequence of added clauses, every assignment", "why_tests_cant": "the simplifications depend on the whole history of previously added units", "anchors": ["sat/core.go: CoreSolver.AddClause, Propagate, uncheckedEnqueue"]}
{"id": "C18", "title": "The SAT verdict is correct", "statement": "If a solver call without cancellation answers SAT, the returned model satisfies every added formula and every assumption; if it answers UNSAT, no assignment does.", "quantifier": "every set of added formulas, every list of assumptions, every sequence of decisions, restarts, clause-database reductions and learnt clauses chosen by the heuristics", "why_tests_cant": "CDCL runs are unbounded in number; soundness has to hold for every heuristic choice", "anchors": ["sat/core.go: Solve, search, analyze, Propagate, analyzeFinal, reduceDB", "sat/call.go: Call"]}
{"id": "C19", "title": "Unsat cores over assumptions", "statement": "After an UNSAT call with assumptions, the reported subset of assumptions together with the added formulas is unsatisfiable, and each reported assumption was passed in the call.", "quantifier": "every formula set, every assumption list in every order, every solver run", "why_tests_cant": "the core depends on the run and on the order of assumptions", "anchors": ["sat/core.go: analyzeFinal", "sat/call.go: generateClauseVector, unsat core computation", "sat/unsat_core.go"]}
{"id": "C20", "title": "Saving and loading solver states", "statement": "After SaveState, any sequence of additions and calls, and LoadState of that state, the solver answers every query exactly like a solver that only ever received the formulas added before the save; loading an invalidated state returns an error and changes nothing.", "quantifier": "every interleaving of Add, Call, SaveState and LoadState, with nested states", "why_tests_cant": "it is a property of all histories; learnt clauses, units and variables created in between must all be undone", "anchors": ["sat/core_state.go: saveState, loadState", "sat/solver.go: Solver.SaveState, LoadState"]}
{"id": "C21", "title": "Cancellation never yields a wrong answer", "statement": "If a handler cancels a SAT call, MaxSAT call, model enumeration or factorization at any event, the call reports cancellation and later calls without cancellation still give correct answers.", "quantifier": "every event at which the handler may cancel, every subsequent call sequence", "why_tests_cant": "the cancel point ranges over all events of unboundedly long runs", "anchors": ["handler/handler.go", "sat/core.go: Solve, search", "maxsat/solver.go: SolveWithHandler", "model/iter/iteration.go: Iterate", "normalform/handler.go: FactorizationHandler"]}
{"id": "C22", "title": "Backbone is exact", "statement": "The computed backbone contains a literal if and only if it holds in every model of the formulas (restricted to the requested variables); optional variables are exactly the remaining ones.", "quantifier": "every formula set, every set of requested variables, every requested backbone sort", "why_tests_cant": "quantifies over all models of arbitrary formulas", "anchors": ["sat/backbone.go: ComputeBackbone"]}
{"id": "C23", "title": "BDDs are canonical", "statement": "Two BDDs built in the same kernel have the same root index if and only if they represent the same Boolean function; tautology, contradiction and equivalence checks on BDDs are therefore exact.", "quantifier": "every sequence of kernel operations (variables, negation, binary operations, restriction, quantification), every variable count", "why_tests_cant": "all operation histories with hash-consing and operation caches", "anchors": ["bdd/kernel.go: makeNode", "bdd/operation.go", "bdd/construction.go: apply, applyRec, notRec", "bdd/bdd.go: IsTautology, IsContradiction, Equals"]}
{"id": "C24", "title": "BDD operations compute the right function", "statement": "And, Or, Implies, Equivalence, Negate, Restrict, Exists and ForAll on BDDs represent exactly the corresponding Boolean function, whatever is in the operation caches.", "quantifier": "every reachable kernel state, every operand BDD, every assignment", "why_tests_cant": "depends on cache contents accumulated over the whole history", "anchors": ["bdd/construction.go: applyRec, notRec, restrictRec, quantRec", "bdd/cache.go"]}
{"id": "C25", "title": "BDD model count", "statement": "ModelCount of a BDD equals the number of assignments of the kernel's variables satisfying it, every time it is called.", "quantifier": "every BDD in every reachable kernel, every number of repeated calls", "why_tests_cant": "repeated calls interact with the result cache; counts range over 2^n assignments", "anchors": ["bdd/operation.go: satCount, satCountRec, pathCountOne, pathCountZero", "bdd/function.go: ModelCount"]}
{"id": "C26", "title": "DNNF model count", "statement": "ModelCount of a compiled DNNF equals the number of models of the formula over its variables, provided the compiled formula is deterministic and decomposable.", "quantifier": "every deterministic decomposable formula, every variable set", "why_tests_cant": "numbers of models over unboundedly many variables", "anchors": ["dnnf/dnnf.go: ModelCount", "dnnf/compiler.go: cnf2ddnnf, leaf2ddnnf"]}
{"id": "C27", "title": "Model enumeration is complete and free of duplicates", "statement": "Enumerating the models of the formulas on a solver over a list of variables returns every projected model exactly once, and the model count equals that number, with or without splitting.", "quantifier": "every formula set, every variable list (also variables unknown to the solver), every split strategy choosing subsets of the variables, every order in which the solver finds models", "why_tests_cant": "the run depends on the solver's choices and on the split strategy", "anchors": ["model/iter/iteration.go: Iterate, iterRecursive, iterate", "model/enum/enumeration.go", "model/count/sat_counting.go"]}
{"id": "C28", "title": "MUS algorithms return minimal unsatisfiable subsets", "statement": "For an unsatisfiable list of propositions, deletion-based and insertion-based MUS computation return a sublist that is unsatisfiable and becomes satisfiable when any single member is removed; for a satisfiable list they return an error.", "quantifier": "every list of propositions", "why_tests_cant": "arbitrary propositions and lists; minimality quantifies over all subsets", "anchors": ["explanation/mus/mus.go: ComputeInsertionBased, ComputeDeletionBased"]}
{"id": "C29", "title": "SMUS is of minimum size", "statement": "The computed SMUS is unsatisfiable together with the additional constraints and no unsatisfiable subset of the propositions has fewer elements; if everything is satisfiable nothing is returned.", "quantifier": "every list of propositions and additional constraints", "why_tests_cant": "minimum cardinality over all subsets of unbounded lists", "anchors": ["explanation/smus/smus.go: ComputeWithHandler, minimumHs, grow"]}
{"id": "C30", "title": "MaxSAT returns the optimum", "statement": "Every offered MaxSAT algorithm returns as optimum the least total weight of violated soft formulas over all assignments satisfying the hard formulas, with a model attaining it, or reports unsatisfiable if the hard formulas are.", "quantifier": "every set of hard formulas and weighted soft formulas, every model and core the SAT solver may return", "why_tests_cant": "optimality quantifies over all assignments; runs depend on the models returned", "anchors": ["maxsat/alg_linear_su.go", "maxsat/alg_linear_us.go", "maxsat/alg_msu3.go", "maxsat/alg_oll.go", "maxsat/alg_wbo.go", "maxsat/alg_wmsu3.go", "maxsat/algorithm.go: computeCostModel"]}
{"id": "C31", "title": "Problem loading into MaxSAT is faithful", "statement": "Each hard clause handed to the MaxSAT solver constrains exactly the literals of the formula given, for every clause including the constant false and clauses with repeated literals.", "quantifier": "every clause formula", "why_tests_cant": "corner clauses", "anchors": ["maxsat/algorithm.go: addClause"]}
{"id": "C32", "title": "DIMACS round trip", "statement": "Writing a CNF in DIMACS format and reading it back yields a clause list equivalent to the original under the variable numbering returned by the writer; a malformed line is reported as error.", "quantifier": "every CNF formula, every text line", "why_tests_cant": "all formulas, including the constants and unit clauses", "anchors": ["io/dimacs_writer.go: WriteDimacsToWriter", "io/dimacs_reader.go: ReadDimacsFile"]}
{"id": "C33", "title": "Printing and parsing are inverse", "statement": "Parsing the printed form of a formula yields a formula equivalent to it (identical for formulas in the factory's normal shape).", "quantifier": "every formula whose variable names are accepted by the grammar", "why_tests_cant": "operator precedence and bracketing over unbounded nesting", "anchors": ["formula/printer.go: Sprint", "parser/LogicNGPropositional.g4", "parser/propositional_parser.go"]}
{"id": "C34", "title": "Substitution", "statement": "Substitute(f, s) has under every assignment the truth value f has under the assignment obtained by evaluating the substituted formulas; it fails exactly when a PB literal would be replaced by a non-literal.", "quantifier": "every formula, every substitution, every assignment", "why_tests_cant": "arbitrary formulas and substitutions", "anchors": ["transformation/substitution.go: Substitute", "transformation/anonymizer.go"]}
{"id": "C35", "title": "Quantifier elimination", "statement": "ExistentialElimination/UniversalElimination over variables returns a formula without these variables that is true exactly if some/every assignment of the variables makes the original true.", "quantifier": "every formula, every variable list, every assignment of the remaining variables", "why_tests_cant": "quantifies over all assignments of the eliminated variables", "anchors": ["transformation/qe.go: ExistentialQE, UniversalQE"]}
{"id": "C36", "title": "Simplifiers preserve equivalence", "statement": "Distribution, factor-out, negation simplification, backbone simplification, unit propagation, CNF/DNF subsumption and AIG transformation return a formula equivalent to the input.", "quantifier": "every formula, every assignment", "why_tests_cant": "rewrite systems over unbounded formulas", "anchors": ["simplification/distribution.go", "simplification/factor_out.go", "simplification/negation_simplifier.go", "simplification/backbone.go", "simplification/subsumption.go", "simplification/unit_propagation.go", "normalform/aig.go"]}
{"id": "C37", "title": "Prime implicants and covers", "statement": "The computed prime implicant implies the formula and no literal can be dropped from it; a computed cover of prime implicants is equivalent to the formula.", "quantifier": "every formula and every model given", "why_tests_cant": "minimality over all sub-terms; arbitrary formulas", "anchors": ["primeimplicant/computation.go; primeimplicant/minimum_implicant.go"]}
{"id": "C38", "title": "Sets of formulas/variables behave like mathematical sets", "statement": "Variable, literal and formula sets: membership, size and content after any sequence of Add/AddAll/Remove/RemoveAll calls match the mathematical set; Content is strictly increasing.", "quantifier": "every sequence of operations", "why_tests_cant": "all histories incl. cached content invalidation", "anchors": ["formula/set.go: fset, mutableFset"]}
{"id": "C39", "title": "Solver data structures", "statement": "The bounded queue used for restarts always reports the average of the last max values pushed; the variable heap returns an element of maximal activity and never loses or duplicates an element.", "quantifier": "every sequence of operations", "why_tests_cant": "ring-buffer wrap-around and heap index bookkeeping over all histories", "anchors": ["sat/queue.go: boundedQueue", "sat/heap.go: heap"]}
{"id": "C40", "title": "Connected components", "statement": "The components computed for a constraint graph partition its variables, two variables sharing a formula are in the same component, and the model count of the conjunction is the product of the counts of the components.", "quantifier": "every list of formulas", "why_tests_cant": "arbitrary graphs", "anchors": ["graph/connected_components.go: ComputeConnectedComponents, SplitFormulasByComponent", "graph/constraint_graph.go", "model/count/dnnf_counting.go: Count"]}
{"id": "C41", "title": "Variable/literal/node functions", "statement": "Variables(f) is exactly the set of variables on which the formula is built: two assignments agreeing on it give f the same truth value, and Literals, NumberOfAtoms, NumberOfNodes and FormulaDepth equal their recursive definitions for any cache content.", "quantifier": "every formula, every cache state reachable through calls", "why_tests_cant": "cache coherence over histories", "anchors": ["formula/set.go: Variables, Literals", "formula/number_of_atoms.go", "formula/number_of_nodes.go", "formula/formula_depth.go", "formula/function.go"]}
{"id": "C42", "title": "Subset-sum bound skipping in MaxSAT", "statement": "The test whether some sub-multiset of the weights sums to a given number is exact, so that the lower bound never skips a value that is attainable.", "quantifier": "every list of positive weights and every sum", "why_tests_cant": "unbounded weights; dynamic programming table", "anchors": ["maxsat/alg_wmsu3.go: subsetSum"]}
{"id": "C43", "title": "Minimum set cover", "statement": "MinimumSetCover returns a subcollection covering every element, with the least possible number of sets.", "quantifier": "every finite collection of sets", "why_tests_cant": "optimality over all subcollections", "anchors": ["np/set_cover.go: MinimumSetCover"]}
{"id": "C44", "title": "Equivalence, implication and tautology checks", "statement": "IsTautology, IsContradiction, Implies, IsEquivalent and IsSatisfiable answer exactly according to the truth tables of their arguments.", "quantifier": "every formula (pair)", "why_tests_cant": "all truth tables", "anchors": ["sat/predicate.go"]}
{"id": "C45", "title": "MaxSAT on any call history", "statement": "Solve after any sequence of adding formulas, saving/loading states and earlier (possibly cancelled) Solve calls returns the result for the formulas currently on the solver.", "quantifier": "every sequence of AddHardFormula, AddSoftFormula, SaveState, LoadState, Solve, SolveWithHandler", "why_tests_cant": "call histories", "anchors": ["maxsat/solver.go: SolveWithHandler, LoadState, addFormulaAsCNF", "maxsat/algorithm.go: saveState, loadState, innerSearch"]}
{"id": "C46", "title": "Configured CNF keeps the models", "statement": "CNF of a formula under any configuration (factorization, Tseitin, Plaisted-Greenbaum, or the advanced mode with its fallback and boundaries) is syntactically a CNF, and its models, projected to the variables of the formula, are exactly the models of the formula.", "quantifier": "every formula, every algorithm setting and every boundary value, every assignment", "why_tests_cant": "all formulas and all configurations; the advanced mode switches per operand depending on counters", "anchors": ["normalform/cnf.go: CNF, advancedEncoding, singleAdvancedEncoding, TseitinCNF, PGCNF", "normalform/handler.go: FactorizationHandler"]}
{"id": "C47", "title": "And-inverter graphs", "statement": "AIG(f) is equivalent to f and contains only constants, literals, conjunctions and negations.", "quantifier": "every formula without cardinality or pseudo-Boolean constraints, every assignment", "why_tests_cant": "every formula shape, recursively nested equivalences in particular", "anchors": ["normalform/aig.go: AIG, IsAIG"]}
{"id": "C48", "title": "Maximize and Minimize find an optimum", "statement": "Maximize(lits) (Minimize(lits)) on a solver returns, if the solver is satisfiable, a model of the solver's formulas in which the number of satisfied literals of lits is greatest (least) among all models; it reports unsatisfiability exactly if there is no model; a cancelled call does not report success; the solver's content is unchanged afterwards.", "quantifier": "every content of the solver, every list of literals, every set of additional variables, every handler", "why_tests_cant": "the optimum quantifies over all models; the search loop adds cardinality constraints incrementally and depends on the models the solver happens to find", "anchors": ["sat/optimizer_function.go: OptimizationFunction, maximize, optimize"]}
{"id": "C49", "title": "BDD path counts", "statement": "PathCountOne (PathCountZero) of a BDD equals the number of paths from its root to the constant true (false), every time it is called.", "quantifier": "every BDD in every reachable kernel, every number of repeated calls", "why_tests_cant": "counts of shared nodes are cached as pointers that the recursion adds to; only BDDs with shared nodes show a difference", "anchors": ["bdd/operation.go: pathCountOne, pathCountRecOne, pathCountZero, pathCountRecZero"]}
{"id": "C50", "title": "The solver answers for the formulas", "statement": "After any history of adding formulas, calls with additional literals and formulas, SaveState and LoadState, a call answers SAT exactly if some assignment satisfies all formulas on the solver, the additional formulas and the additional literals; the model over any requested variables is a restriction of such an assignment (and satisfies them all if all variables were requested); the reported level-0 literals follow from the formulas; the call leaves the formulas on the solver unchanged. This covers the Plaisted-Greenbaum transformation on the solver with its cache of auxiliary variables.", "quantifier": "every history of Add, Sat/Call, SaveState, LoadState on one solver, every formula, every handler that does not cancel at a conflict", "why_tests_cant": "the cache of auxiliary variables carries clauses over from one formula to the next and is invalidated by LoadState; whether it is still right depends on the whole history", "anchors": ["sat/solver.go: Add, addWithProp, addFormulaAsCNF, solverLiteral, SaveState, LoadState", "sat/pg_on_solver.go: addCNFToSolver, computeTransformation, getPGVar", "sat/call.go: initCall, close", "sat/encoding_result.go"]}
{"id": "C51", "title": "Adding formulas to a solver leaves the factory as it was", "statement": "Adding a formula to a SAT solver does not change any formula of the factory: each handle keeps its sort, operands and truth values, and the same constructor call gives the same handle before and after.", "quantifier": "every factory history, every sequence of formulas added to solvers of the factory, every handle, both values of UseAtMostClauses", "why_tests_cant": "the effect shows only in formulas built later from arguments in a certain order; a test of the solver does not look at the factory, and a test of the factory does not use a solver", "anchors": ["sat/solver.go: addWithProp, generateClauseVector", "formula/factory.go: PBCOps, findCC, pbcsEquals"]}
{"id": "C52", "title": "Soundness of the DRUP check", "statement": "If the DRUP check of a proof trace yields a core, the core consists of original clauses (up to the order of their literals) and is unsatisfiable; the propositions the solver reports for it are propositions of recorded clauses and are unsatisfiable together. A wrong trace never yields a wrong core.", "quantifier": "every list of original clauses, every trace with additions and deletions in any order (not only traces of the solver), every hash function, every assignment of propositions to clauses", "why_tests_cant": "the check runs on traces written by the solver, which are right; a check that accepts too much or marks too few clauses shows only for traces with certain deletions and reasons, and a core is seldom checked for unsatisfiability", "anchors": ["sat/proofs.go: drupCompute, parse, verify, propagate, analyze", "sat/unsat_core.go: computeUnsatCore, getFormulaForVector, handleTrivialCase"]}
{"id": "C53", "title": "Reordering of variables keeps BDDs", "statement": "A reordering of the variables of a BDD kernel (any sequence of moves of variables, SwapVariables) ends without panic; afterwards level2var and var2level are inverse permutations, the node table is canonical, every BDD the caller holds has the same root, the same function and still its reference, so that later calls do not free it.", "quantifier": "every history of kernel calls, every number of variables, every sequence of moves and swaps, every size of the node table and its sub-tables, every hash function", "why_tests_cant": "nodes are rewritten in place while reference counts decide what is freed; an error shows only for certain sharing of nodes between BDDs and a second reordering or garbage collection afterwards; the tests reorder a handful of BDDs once", "anchors": ["bdd/reordering.go: swapVariables, reorderVardown, reorderVarup, reorderDownSimple, reorderSwap, reorderMakenode, reorderLocalGbc, reorderRehashAll, reorderInit, markRoots, addrefRec, reorderDone", "bdd/operation.go: mark, unmark", "bdd/kernel.go: SwapVariables"]}
{"id": "C54", "title": "Reading a BDD gives its function", "statement": "For every BDD the caller holds: CNF() is a conjunctive normal form of its function and each falsifying assignment falsifies exactly one clause; DNF() is a disjunctive normal form and each satisfying assignment satisfies exactly one term; ToFormula is equivalent to the function with every flag; ModelEnumeration(xs) returns exactly the projections of the models to the variables of xs the kernel knows, each once; NodeCount and VariableProfile count the distinct nodes reachable from the root, in total and by variable; VariableOrder lists each variable once, and SwapVariables exchanges two of its entries.", "quantifier": "every history of kernel calls, then no or any reordering, every BDD that may still be used, every list of variables for the enumeration, also kernels with more variables than names", "why_tests_cant": "the profile of a path is one array that is changed in place along the recursion, indexed by variables but filled by levels; a value that is not reset shows only for certain shapes of BDDs and orders", "anchors": ["bdd/operation.go: allSat, allSatRec, allUnsat, allUnsatRec, toFormula, toFormulaRec, nodeCount, varProfile, varProfileRec", "bdd/function.go: bddModelEnum, generateAllModels, containsModel, bddNormalform", "bdd/bdd.go: ToFormula, ModelEnumeration, CNF, DNF, NodeCount, VariableProfile, VariableOrder", "bdd/kernel.go: markCount"]}
{"id": "C55", "title": "Models picked from a BDD and the support", "statement": "For a BDD that the kernel keeps, before and after a reordering: Model and FullModel return an error if and only if the function is unsatisfiable. Otherwise every assignment that agrees with the result satisfies the function; Model has each variable at most once and only variables on which the function depends; FullModel has each variable exactly once and no other; ModelWithVariables has also all given variables, those on which the function does not depend with the given value. Support returns exactly the variables on which the function depends, each once. None of these calls changes the function of a BDD that the kernel keeps.", "quantifier": "all histories of kernel calls, all sizes of tables, all orders of variables", "why_tests_cant": "A model that omits a decisive variable or a support that is too small looks plausible; the term is built in the table of the kernel itself, where a collection of garbage may run between two nodes.", "anchors": ["bdd/operation.go: satOne, satOneSet, fullSatOne, support, allNodes", "bdd/bdd.go: Model, ModelWithVariables, FullModel, Support, createModel"]}
{"id": "C56", "title": "Generated problems", "statement": "For every size n, GeneratePigeonHole builds a formula whose models are exactly the ways to put n+1 pigeons into n holes without sharing; it is unsatisfiable, and it becomes satisfiable without any single one of its clauses. The models of GenerateNQueens(n) are exactly the placements with a queen in each row and no two queens in the same row, column or diagonal.", "quantifier": "all sizes n, all assignments, both settings of the simplification of complementary operands", "why_tests_cant": "Tests look at a handful of small sizes; a diagonal left out at the edge of the board or a hole counted twice changes the models only for some sizes.", "anchors": ["sat/pigeon_hole.go: GeneratePigeonHole, placeInSomeHole, onlyOnePigeonInHole", "sat/queen.go: GenerateNQueens"]}
{"id": "C57", "title": "Canonical normal forms", "statement": "CanonicalCNF and CanonicalDNF return a formula equivalent to the given one in CNF resp. DNF. Each clause (term) has every variable of the formula, no two have the same phases, and there is one for each falsifying (satisfying) row of the truth table; so equivalent formulas over the same variables get the same sets of clauses (terms).", "quantifier": "all formulas, all CNF transformations on the solver that carry the formula, all strategies of the enumeration, all correct solvers", "why_tests_cant": "Dropped variables, auxiliary variables and the constants are corner cases of the enumeration that a sample of formulas does not meet together.", "anchors": ["model/enum/normalform.go: CanonicalCNF, CanonicalDNF, canonicalEnumeration"]}
{"id": "C58", "title": "Orderings of variables", "statement": "BFSOrder and DFSOrder list each variable of the formula once, by its first occurrence level by level resp. from left to right. VariableProfile counts the occurrences, and MinToMaxOrder and MaxToMinOrder sort by it, with ties in the order of DFSOrder. ForceOrder returns, and its result lists each variable of the formula once.", "quantifier": "all formulas (with constraints), all ways in which the library sorts more than 12 elements", "why_tests_cant": "A test compares the order for a few formulas. The loop of ForceOrder compares rounded centres of gravity and alternates for ever only on rare hyper-graphs.", "anchors": ["bdd/ordering.go: BFSOrder, DFSOrder, MinToMaxOrder, MaxToMinOrder, occurenceOrder, ForceOrder, force, shouldProceed", "graph/hypergraph.go", "graph/hypergraph_generator.go", "formula/formula_profile.go: VariableProfile"]}
{"id": "C59", "title": "Normal forms by way of a BDD", "statement": "CNF and DNF of the package bdd return a formula in CNF resp. DNF that is equivalent to the given one and has no auxiliary variables; a cancelled compilation gives no formula.", "quantifier": "all formulas that can be compiled, all sizes of the tables, all handlers, all orders that the library chooses", "why_tests_cant": "The result depends on the ordering, the kernel, the paths and the unit propagation together; a test compares a few formulas.", "anchors": ["bdd/normalform.go: CNF, DNF, CNFWithHandler, DNFWithHandler, compute"]}
{"id": "C60", "title": "Occurrences of variables and split strategies", "statement": "VarOccurrences counts exactly the occurrences of the variables that are asked for; the providers choose as many variables as the rate and the maximum say, namely the least or most common ones, independently of the order of maps; with the strategies of the package the enumeration ends and reports exactly the models.", "quantifier": "all states of the solver, all sets of variables, all rates between 0 and 1, all maxima, all orders of iteration over maps", "why_tests_cant": "The choice goes through floating-point rounding and the iteration over a map; a test sees one order and few sizes.", "anchors": ["sat/var_occs.go: VarOccurrences, initResultMap", "model/iter/split.go: chooseByOccs, numbOfVarsToChoose", "model/iter/strategy.go: BasicStrategy, NoSplitStrategy, DefaultStrategy"]}
{"id": "C61", "title": "Formulas on the solver", "statement": "FormulasOnSolver returns a set of formulas that together have exactly the models of the clauses and constraints added to the solver (and not taken back): an assignment satisfies all of them iff it satisfies everything added; the constant false is among them only if there is no model.", "quantifier": "all histories of adding, solving, saving and loading on the core solver, all names, all assignments", "why_tests_cant": "The result depends on what propagation, learning, cardinality watchers and backtracking left behind; a test compares a few sets after short histories.", "anchors": ["sat/formulas_on_solver.go: FormulasOnSolver", "sat/core.go: completeBacktrack, loadState, newVar"]}
{"id": "C62", "title": "Enumeration into a BDD", "statement": "ToBdd returns a BDD over the given variables that is true under exactly the assignments that agree on these variables with a model of the solver; variables that the solver does not know are free in it. Whatever a handler cancels, the BDD is true only under such assignments; and if success is reported nothing is missing.", "quantifier": "all contents of the solver, all variables, all strategies with and without splits, all behaviours of handlers, all sizes and hash functions of the BDD kernel", "why_tests_cant": "The result goes through splits, commits and rollbacks of the iteration and a growing node table with garbage collection; a test compares a few formulas.", "anchors": ["model/enum/enumeration_bdd.go: ToBddOnSolverWithConfig, generateModelCollector, AddModel, Commit, Rollback, Result", "model/iter/iteration.go: Iterate"]}
{"id": "C63", "title": "Bit sets of the DNNF compiler", "statement": "set, or, and, clear, newBitset compute addition of an index, union, intersection and the empty set; cardinality is the number of members; nextSetBit is the least member from an index on, or -1; toArray returns the members in ascending order and does not run out of its slice; toBoolSlice, read as false beyond its end, is the set; bitsetComp is a total order that is 0 only for identical bit sets and decides sets with the same number of words by the least index in which they differ.", "quantifier": "all bit sets with any number of words, all indices, across the growth of the sets", "why_tests_cant": "The masks, the shifts at the borders of words and the growth of the words interact; errors show only at certain indices, lengths and pairs of sets.", "anchors": ["dnnf/bitset.go", "dnnf/compiler.go: bitsetComp", "dnnf/dtree.go: toArray"]}
{"id": "C64", "title": "Random formulas", "statement": "A formula generated with a maximal depth has at most this depth; And, Or, Impl, Equiv (for depth at least 1) and Not (at least 2) return a formula of their sort; every node of the formula is allowed by the configuration: variables are the configured ones, sorts of weight 0 do not occur, comparators, phases of drawn literals and signs of coefficients of weight 0 do not occur, operators have at least two operands, constraints have operands, numbers of operands, coefficients and right-hand sides are within their bounds; the generation ends without a panic; the same seed gives the same formulas.", "quantifier": "all configurations, all streams of random numbers, all orders of iteration over maps, all depths", "why_tests_cant": "A test draws formulas for a few seeds of the default configuration; the rejection loops and the limits of the configuration are only met by chance.", "anchors": ["randomizer/formula_randomizer.go"]}
{"id": "C65", "title": "Reading MaxSAT problems", "statement": "A MaxSAT problem in DIMACS format (weighted with or without top weight, or unweighted) is read so that the solver receives one call per clause in their order: a hard formula if and only if the weight is the top weight, otherwise a soft formula with its weight (1 if unweighted), with a formula that holds exactly when the clause holds; different variables have different names; malformed files are reported.", "quantifier": "all problems, all comments, all numbers within the ranges of the format, all texts", "why_tests_cant": "Tests read a few files that follow one layout; blanks, comments, limits of numbers and of the scanner are not covered.", "anchors": ["maxsat/reader.go", "maxsat/solver.go:169-187"]}
{"id": "C66", "title": "Files of formulas", "statement": "A formula written to a file, on one line or its conjuncts on lines of their own, is read back as the very same formula (or its conjuncts in order if the lines are read separately), and there is an error exactly if a line reaches the limit of the scanner; for any text that is read, the result is equivalent to the conjunction of the formulas of its lines, one per line; lines that are no formula are reported as errors.", "quantifier": "all formulas, both ways of writing, all limits, all texts", "why_tests_cant": "Tests write and read a handful of files; names, long lines, malformed lines and lines with trailing text are not covered.", "anchors": ["io/formula_writer.go:36-53", "io/formula_reader.go:38-63", "parser/parser.go"]}
{"id": "C67", "title": "Graphical representations of formulas", "statement": "The abstract syntax tree generated for a formula is a tree that shows the formula: its nodes are the occurrences of subformulas in order, with the configured or default label and style, and every node has exactly one edge per operand in the order of the operands; the graph generated for a formula shows the formula as well and has exactly one node per different subformula; nodes are terminal exactly if they have no edges to others.", "quantifier": "all formulas, all generators (labels and styles), all orders of the literals", "why_tests_cant": "Tests compare the files written for a few formulas with expected ones; sharing, nesting, constraints with shared literals and label functions are not covered in general.", "anchors": ["formula/graphical.go", "graphical/generator.go", "graphical/representation.go"]}
{"id": "C68", "title": "Assignments and models on handles", "statement": "Creating an assignment fails exactly if two literals are complementary, otherwise it has exactly the given literals; no sequence of additions gives two values to a variable; PosVars returns the variables set to true and NegVars those set to false, each once; an assignment made a model and made an assignment again is the same; a model is split into its positive variables and negative literals; the text of an assignment does not depend on the order of the maps.", "quantifier": "all lists of literals, all sequences of additions, all orders of iteration over maps", "why_tests_cant": "Tests use a few literals; the order of iteration over maps is random, and a test of NegVars compares with the handle of the negative literal.", "anchors": ["assignment/assignment.go:11-109", "model/model.go", "formula/formula.go:31-93"]}
{"id": "C69", "title": "The graphs made from a BDD", "statement": "The node representation of a BDD is a graph in which the value read along the edges is the value of the function of the BDD for every assignment; every node is reachable, different nodes have different functions, and the variables along every path follow the variable order. The drawing of a BDD has the same meaning: exactly one negative and one positive edge per inner node, each node drawn once and reachable, with the label of its variable or constant and the styles of the generator.", "quantifier": "all sequences of calls on a kernel, all BDDs it returned, before and after reordering, all assignments, all generators", "why_tests_cant": "Tests compare a few drawings with files; sharing, reduction and the meaning of the graph for all assignments are not compared.", "anchors": ["bdd/bdd.go:432-462", "bdd/node.go", "bdd/graphical.go", "bdd/operation.go:340-353"]}
{"id": "C70", "title": "The DOT text of a drawing determines what it shows", "statement": "Two drawings with the same DOT text have the same direction, background, alignment, the same edges with the same ends, styles and labels in the same order, and the same nodes with the same ids, labels and styles; no node, edge or attribute is lost or confused in the text.", "quantifier": "all drawings with arbitrary nodes, edges, styles, labels and colors", "why_tests_cant": "Tests compare a few drawings with files; that no two different drawings collide is not observable on examples, and no test has a quote in a label.", "anchors": ["graphical/dot_writer.go", "graphical/representation.go", "graphical/styling.go"]}
{"id": "C71", "title": "The Mermaid text of a drawing determines what it shows", "statement": "Two drawings with the same Mermaid text have the same nodes with the same ids, labels, colors and shapes (no shape is an ellipse), the same edges with the same ends, styles and labels in the same order, and, if there are edges, the same direction. The style of an edge is written with the number of the edge, the colors of a node with its id.", "quantifier": "all drawings with arbitrary nodes, edges, styles, labels and colors", "why_tests_cant": "Tests compare a few drawings with files; that no two different drawings collide and that the counter of the link styles matches the edges for every mixture of edges with and without style is not observable on examples.", "anchors": ["graphical/mermaid_writer.go", "graphical/representation.go", "graphical/styling.go"]}
{"id": "C72", "title": "Formula graphs and their drawings have exactly the formulas added and the connections made", "statement": "After any sequence of AddNode and Connect a formula graph has exactly the formulas named, each once, and Neighbours returns exactly the formulas connected with the given one, each once. Its drawing has exactly one node per formula with label and style of the formula, and between two nodes exactly one edge if the formulas were connected and none otherwise.", "quantifier": "all sequences of calls, all formulas and all generators", "why_tests_cant": "Tests draw two small graphs; an undirected edge drawn twice, lost or attached to the wrong node depends on the order of the calls and of the neighbours.", "anchors": ["graph/formula_graph.go", "graph/graphical.go", "graphical/representation.go"]}
{"id": "C73", "title": "Colors from RGB values", "statement": "ColorFromRgb returns an error iff one of the three values is not between 0 and 255; otherwise the color is a text #rrggbb that stands for exactly these values, and it has no character that would break a DOT or Mermaid text.", "quantifier": "all integers for red, green and blue", "why_tests_cant": "There is no test of ColorFromRgb; a missing padding shows only for values below 16.", "anchors": ["graphical/styling.go"]}
{"id": "C74", "title": "The order of propositions makes unsat cores deterministic", "statement": "PropComparator is a strict weak order and gives 0 only for propositions with the same text and the same formula. So sorting the propositions of an unsat core gives the same texts and formulas in the same order, whatever the order in which the map returned them.", "quantifier": "all propositions, all lists of propositions, all results a sorting function may return", "why_tests_cant": "Go randomises the iteration of maps; tests compare cores as sets or see one order.", "anchors": ["formula/proposition.go", "sat/unsat_core.go"]}
{"id": "C75", "title": "Minterms, maxterms and constraints are recognised", "statement": "IsMinterm holds exactly for constants, literals and conjunctions of literals, IsMaxterm exactly for constants, literals and disjunctions of literals, and ContainsPBC exactly for formulas with a cardinality or pseudo-Boolean constraint somewhere among their subformulas.", "quantifier": "all formulas", "why_tests_cant": "Tests try a few formulas; a constraint may be hidden at any depth below any operator.", "anchors": ["normalform/term.go", "encoding/contains_pbc.go"]}
