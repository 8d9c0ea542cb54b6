# Formal model of logicng-go in Lean 4

Source under study: `/repo` (booleworks/logicng-go, pinned commit), read as text only; it was neither built nor run.
Model and proofs: `lean/Verif`. Properties: `properties.jsonl` (C01 …).
Claims with exact theorem names: `MANIFEST.json`. Mutation log: `seeded/LOG.jsonl`.

## Trusted base

* Lean 4.33.0's kernel. Every theorem depends at most on the axioms `propext`, `Classical.choice`, `Quot.sound`;
  there are no axioms of our own, no `sorry`, no `native_decide`, no `bv_decide`, no `implemented_by`.
  Mathlib modules are imported one by one; they are checked by the same kernel.
* The reading of the Go source. Every model definition cites the file and the lines it models; where it simplifies, its comment says so.
* The specifications in `Verif/Spec/*` and in the section "specification" at the head of the `Props.lean` files. They do not
  use the helpers of the model: truth tables of formula trees (`Fm.eval`), syntactic normal forms, counting over assignments.

### General simplifications

* Go `int`, `uint64` etc. are unbounded `Int`/`Nat`, except for the formula handles (machine words, C01) and where a
  width matters for a claim (adder networks, C16). Floats (activities, thresholds, commander/product sizes) are only compared
  or idealised as exact numbers.
* Go maps are association lists or functions; wherever the code ranges over a map, the order is a parameter of the model
  (`ord`, `srt`), so theorems hold for every order. Sorting is modelled as some permutation or as a real sort where it matters.
* Panics, errors and cancelled calls are explicit values (`none`, error constructors). Handlers are arbitrary oracles that
  answer every event; a theorem without a hypothesis on the handler holds for all of them.
* Pointers and aliasing are modelled where the code depends on them (C38 stores, C15 in-place compaction, BDD node tables,
  SAT clause references); elsewhere slices are values. There are no goroutines in the modelled code.
* Loops and recursion that are not structurally bounded take fuel. Theorems about results are then partial correctness ("if it returns …");
  termination is a separate theorem where it holds and was proved (C12, C13, C27, C37, C42), and a divergence theorem where it fails.
* Formula trees are finer than handles: the factory maps equal trees to equal handles (C01), so caches keyed by handles are modelled as
  caches keyed by trees. Constructors on trees (`Factory/Tree.lean`) are proved to be what the factory does (`Factory/Refine.lean`).
* Algorithms that use a solver (MUS, SMUS, prime implicants, enumeration, optimisation, backbone simplifier) are proved against an oracle with the specification
  proved for the real solver in C18, C22, C48, C50. Oracles are arbitrary functions that meet the specification, so every model the solver might find is covered.

## Layout

`Verif/Spec` specifications; `Verif/<Area>/Model.lean` model; `Props.lean` (and files named after the topic) property theorems, each with an
`example` that shows a concrete non-trivial case of its hypotheses; other files helper lemmas.

| area | code | modules |
|---|---|---|
| Factory | `formula/{formula,factory,set,function,number_of_*,formula_depth,formula_profile,subnode}.go` | `Factory/*` |
| Containers | `formula/set.go`, `sat/{heap,queue}.go` | `Data/*` |
| Assignments | `assignment/*` | `Assignment/*` |
| Normal forms | `normalform/*` | `NormalForm/*` |
| Encodings | `encoding/*` | `Encoding/*` (AMO, cardinality), `PB/*` |
| Transformations | `transformation/*` | `Transform/*` |
| Simplifiers | `simplification/*` | `Simpl/*` |
| SAT core | `sat/{core,core_state,datastructures,backbone,predicate}.go` | `Sat/*` |
| DRUP check, unsat cores | `sat/{proofs,unsat_core}.go` | `Drup/*`, `Sat/Call.lean` |
| Printer and parser | `formula/printer.go`, `parser/{LogicNGPropositional.g4,propositional_parser.go}` | `Parser/*` |
| SAT on formulas | `sat/{solver,call,pg_on_solver,encoding_result}.go` | `Solver/*` |
| Optimisation | `sat/optimizer_function.go` | `Opt/*` |
| BDD | `bdd/{kernel,construction,operation,cache,bdd,reordering}.go` | `Bdd/*` |
| Enumeration | `model/{iter,enum,count}` | `Enum/*`, `Graph/*` |
| DNNF | `dnnf/*`, `sat/dnnf_solver.go` | `Dnnf/*` |
| Explanations | `explanation/{mus,smus}` | `Explain/*` |
| Prime implicants | `primeimplicant/*` | `Prime/*` |
| MaxSAT | `maxsat/{algorithm,solver,alg_wmsu3}.go` (parts), `maxsat/{enc_totalizer,enc_swc,alg_linear_us,alg_linear_su,alg_msu3,alg_wmsu3}.go`, `np/set_cover.go` | `MaxSat/*` |
| Text formats | `io/*.go` | `Io/*` |
| Drawings | `formula/graphical.go`, `bdd/graphical.go`, `graph/graphical.go`, `graphical/*.go` | `Graphical/*`, `Bdd/Graph.lean`, `Graph/Graphical.lean` |
| Random formulas | `randomizer/formula_randomizer.go` | `Randomizer/*` |
| Propositions | `formula/proposition.go` | `Explain/*` |

Not modelled: variable blocks (`bdd/tree.go`) and the cost functions of the reordering methods (which only choose among moves of variables), configuration plumbing, the generated `*_string.go` files and the generated parser (its grammar is modelled),
opening, creating and closing files, AIGER-like helpers, performance counters. Limits within modelled areas are in the table below.

## Properties

P = proved, p = partial, – = not yet claimed.

| id | | what is modelled, how it is proved, what is missing |
|---|---|---|
| C01 | p | Whole state of `CachingFactory` (id counter, tables, caches, hash buckets) and all constructors as a state machine over handles; invariant by induction over all histories. Uniqueness of handles proved. "Same call, same handle" is false after `Minterm`/`Clause` with duplicate or complementary literals (`C01_same_call_counterexample`) and proved otherwise. The 28-bit id overflow is unchecked (`C01_overflow`). |
| C02 | P | Denotation of handles into formula trees; every constructor refines its truth table, in every reachable state. |
| C03 | P | Tables only grow. Mutation of operand slices by callers is outside the model. |
| C04 | P | From the invariant (negated id = id xor 1). |
| C05 | P | Invariant on the stored operands; a counterexample shows why the `Minterm`/`Clause` exception is needed. |
| C06, C07 | P | Structural induction; also error branches of the constructor of assignments, constraints with unassigned literals. |
| C08 | P | Simultaneous induction for both polarities; also for formulas with constraints, given an exact encoder. |
| C09 | P | Factorization with an arbitrary handler and any right cache. `C09_handler_not_reusable`: a `FactorizationHandler` that cancelled once stays cancelled. |
| C10 | P | Tseitin with its caches, all states reachable by calls. |
| C11 | p | Polarity-indexed invariant. False for a `CNFAuxState` in which a small formula was transformed before (`C11_pg_reuse_false`); proved otherwise. The variant on the SAT solver is C50. |
| C12 | P | All encoders; termination for sane sizes, `C12_diverges` for others. |
| C13 | p | Totalizer, modular totalizer, cardinality network; on solvers the zero literals left by `clear()` in `directSorter` break the network (`C13_solver_false`). Missing: `< 0` (not modelled, the encoder panics) and the result on a solver, where the claim is false. |
| C14 | P | Any sequence of tightenings. |
| C15 | p | In-place compaction modelled; equations with a leading zero coefficient are wrong (`C15_eq_false`). |
| C16 | p | SWC, binary merge, adder; `C16_eq_false` (from C15), `C16_adder_false` (bit 31 ignored). |
| C17 | P | Model as for C18. The property speaks of clauses; the theorems also cover at-most clauses (then without `ClauseMinBasic`). |
| C18, C20 | p | SAT core: watches, trail, propagation, analysis with all three minimisations, learning, restarts, reduction of the clause database, heuristics as arbitrary choices, incremental save/load; invariants over all histories of `NewVar/AddClause/Solve/SaveState/LoadState`. Native at-most clauses (`addAtMost`, their watches, propagation, conflicts, reasons, saving and loading; `Sat/AtMost.lean`) are included: `AmI` says that the watched part has one literal more than may be true and that at most one watched literal is true at a fixpoint. With them the theorems exclude `ClauseMinBasic`, for which the answers are wrong (`C18_atMost_false`), and repeated literals. Proof tracing is C19; partial correctness. |
| C19 | p | Conflict over assumptions (`analyzeFinal`); recording of original clauses during the search (erases to the search of C18) and the cores found without DRUP check. `initCall` sorts the literals but not their propositions, so that a reported core may be satisfiable (`C19_core_false`). The DRUP check is C52; `C19_call_partial` composes both. Missing: that the check accepts the traces the solver writes. |
| C21 | p | Cancellation at start/end of a call is harmless; at a conflict it loses clauses and makes later answers wrong (`C21_false`). |
| C22 | p | Backbone on the core solver, all sorts, state restored afterwards; rotatable literals also for at-most clauses (`unitAm`). Missing: at-most clauses with `ClauseMinBasic` (C18) or with repeated literals. |
| C23 | P | Kernel with node table, hash chains, reference counts, garbage collection, growth, all caches; invariant over all call histories. No reordering. |
| C24 | p | Right function for every operation and for referenced BDDs for ever; results of Restrict/Exists/ForAll are not referenced and may be overwritten (`C24_restrict_false`). |
| C25, C49 | p | Repeated counts are wrong because of shared big integers in the caches (`C25_false`, `C49_false`); first counts right (`C25_partial`). |
| C26 | p | Solver wrapper, dtree generator with min-fill order, separators, cache keys, compiler and counter (`Dnnf/*`) on the SAT core of C18. The property is false (`C26_false`, `C26_false2`, `C26_decomposable_false`). Proved: counts of deterministic decomposable formulas with any cache history, determinism of every result, leaves, trees. Bit-set keys are compared as sets; the handler never cancels. |
| C27 | p | Iteration with splits against any correct solver: exactly the projected models, once each; soundness under cancellation; termination with the conditions stated; `Enum/Cancel.lean`: success under a handler that stays cancelled once it is means completeness (`C27_success`); `C27_diverges`, `C27_cancel_false`, `C27_once_false`, `C27_additional_false` show where the code fails. |
| C28 | p | Both algorithms; the insertion-based one returns an empty MUS for an empty list (`C28_insertion_empty_false`). |
| C29 | p | Hitting-set loop, any handler. Missing: the SAT and optimisation oracles are hypotheses; C18 and C48 are partial. |
| C30 | p | `MaxSat/{Base,Totalizer,Relax,LinearUS,Msu3,LinearSU,Swc,SwcInc,TotInc,LinearSUW,Wmsu3,Wmsu3Bmo,AlgProps,WmsuProps,Oll,OllSearch,Wbo,WboInv,WboStep,WboSym,WboSearch,WboSymFalse,IncWbo,IncWboSearch,IncWboSymFalse}.lean`. The SAT solver is any oracle whose answers have the properties of C18/C19 (`Orc.Ok`: models satisfy clauses and assumptions; cores are negated assumptions implied by the clauses), possibly cancelled at any call; the handler is any sequence of answers. The totalizer is modelled clause by clause (build, join, incremental). Specification: `Right` (least cost, attained by the reported model). Proved for LinearUS and MSU3, both strategies, with termination. LinearSU (unweighted and lexicographic search over the totalizer, weighted search over the sequential weight counter, `isBmo`): results are safe; the reported cost is least for unweighted problems, lexicographic weights, and weights where no bound leaves exactly one soft clause. Otherwise false (`C30_linearSU_false`). WMSU3: with the incremental strategy right in both modes (the weight counter and the totalizer grow by joins; invariant: the lower bound, the attainable sums of the active weights, and in the lexicographic mode a witness for each finished level). Without it, results are safe, but the cost may not be the least (`C30_wmsu3_none_false`) and the search may not end (`C30_wmsu3_none_loops`). OLL: soft clauses with their splits, totalizers, `boundMapping`, `cardinalityAssumptions` and the choice of the next weight are modelled; right for all positive weights (invariant `OInv`: in every model of the clauses, cost ≤ lower bound + violated open soft clauses + exceeded open bounds, with equality for the exact values of the auxiliary variables). WBO: relaxation with splitting, the exactly-one encoding, `symmetryLog`, `symmetryBreaking` and the stratified search are modelled; right without symmetry clauses and for equal weights (invariant `WInv`: violated weight not yet relaxed plus lower bound; a symmetry clause excludes one of two exchangeable relaxations, `WInv.exchange`). With symmetry clauses and different weights split soft clauses share relaxation variables, exchanging is no longer possible, and the search can report a cost that is not least (`C30_wbo_symmetry_false`; a table of conflicts, each checked to be implied). IncWBO: the same invariant on one solver which keeps the clauses of deactivated soft clauses (`Slv`); same results (`C30_incwbo_partial`, `C30_incwbo_symmetry_false`). |
| C45 | p | `MaxSat/{History,HistoryLemmas,HistoryInv,HistoryProps,HistoryFalse}.lean`: all fields that `saveState`, `loadState` and the searches use, `innerSearch`, `SolveWithHandler` with the cached result, the states the caller holds. A search is anything that stays within a frame (appends clauses and variables, changes weights, bounds, counters and relaxation variables) and is right on states without traces; shown for OLL, WBO, IncWBO, MSU3, LinearUS, LinearSU by C30 (for LinearUS without incremental strategy with its real traces, `Srch.linearUS`). Proved for all histories: the problem on the solver is that of a new solver with the formulas that are still there (`C45_state_partial`), and Solve returns the right result for these formulas (`C45_history_partial`, `C45_oll_partial` without assumptions on the search). Refuted: a call after a cancelled one, a call after one cancelled at the finish event, WMSU3. Not modelled: the cache of the Plaisted-Greenbaum transformation (cleared by `LoadState`), the model field, the selector counter (names of selector variables are never used again). |
| C31 | p | Loading of clauses; `C31_falsum_false`, `C31_repeated_false`. |
| C32 | p | Characters of the DIMACS text; malformed lines are accepted (`C32_malformed_false`). |
| C33 | p | Printer (default symbols), lexer, grammar and listener on characters (`Parser/*`): lexing a printed formula gives its tokens, recursive descent its tree, the stack of the listener the formula built anew by the constructors; formulas of a factory (all plain histories) are fixed by that. False for constraints over numeric names (`C33_numeric_false`, panic `C33_numeric_panics`) and, as to identity, for `CC(LT,0)` (`C33_lt0_false`); trailing text is ignored (`C33_garbage`). ANTLR's runtime is replaced by longest match and recursive descent; error recovery (where the listener runs on broken trees and may panic, e.g. on `~`) is not modelled. |
| C34, C35 | P | Structural induction. |
| C36 | p | All simplifiers of the package; the ratings, printed lengths and handlers are arbitrary. Factory-shaped (flat) trees. Unit propagation runs on the core solver model (`Simpl/Units.lean`) and is equivalent to the CNF given; auxiliary variables of the CNF stay in the result. `MinimizeNegations` is no equivalence with constraints (`C36_negations_false`). |
| C37 | p | Covers: prime, complete, equivalent, terminating. `Minimum` is neither prime nor minimum (`C37_minimum_false`). |
| C38 | P | Store of aliased sets. |
| C39 | p | Heap `remove` only percolates down (`C39_heap_remove_false`); growing a used queue breaks the sum (`C39_grow_used_false`). |
| C40 | p | Components and the component-wise count; DNNF count and CNF as parameters with their specifications. Missing: the DNNF counter is a hypothesis; C26 is not proved. |
| C41 | P | Functions with caches. |
| C42 | P | Dynamic programming table; the raising loop diverges beyond the total weight (`C42_diverges`). |
| C43 | p | Over a MaxSAT oracle (C30's specification). Missing: the MaxSAT solver is a hypothesis; C30 proves it for some of the algorithms only. |
| C44 | p | Over the specification of C18, and on the solver model of C50 with the modelled encoders (`Solver/Predicate.lean`). Missing: existence of an answer; constraints for which an encoder is wrong. |
| C46 | p | All algorithms and boundaries of `CNF`; constraints anywhere in the formula (`NormalForm/Constr.lean` for any right encoder, `NormalForm/ConstrEnc.lean` for the encoders of C12–C16, each constraint encoded once with its own range of auxiliary variables). The factorization cache is described by `CacheE`, which the calls keep. False where the encoders are (`C46_eq_false`), and only there. |
| C47 | p | Equivalence proved; the AIG of an equivalence is not an AIG (`C47_aig_shape_false`). |
| C48 | p | Value optimal; model lacks literals unknown to the solver (`C48_unknown_false`). |
| C50 | p | Solver on formulas: names and indices of variables, Plaisted–Greenbaum on the solver with its cache, encodings of top-level constraints, calls, saves and loads; refinement onto a list of formulas, through the core histories of C18/C20. Constraints inside formulas (`Solver/Constr.lean`): the addition has the same effect as that of the NNF, in which the constraints are replaced by encodings with auxiliary variables; the answers are then transferred to the formulas themselves. Not covered: `CNFFactory` with constraints inside; `UseAtMostClauses` is modelled (which constraints become at-most clauses, `amPart`); refuted together with `ClauseMinBasic` (`C50_atMost_false`). Therefore partial. |
| C51 | p | `Factory/Shared.lean`: the slice of literals shared between factory and solver as an operation on the factory. Truth values stay; operands, interning and uniqueness do not (`C51_operands_false`, `C51_interning_false`, `C51_unique_false`). |
| C52 | P | `Drup/{Model,Lemmas,Inv,Prop,Run,Props,Core}.lean`: `sat/proofs.go` and `sat/unsat_core.go` in full: parsing, watches with the flag of marked clauses, propagation, analysis, forward and backward pass with deletions undone. The two passes are proved together as an unwinding (`run_ok`): going back over a line leaves stack, watches and reasons as they were before it, and each marked lemma follows from marked clauses before it. No property of trace or hash function is used; only literals different from 0. Not modelled: index out of range panics, so that the model may answer where the code panics. |
| C53 | p | `Bdd/Reorder*.lean`: `reorderInit`, `markRoots`, swap of adjacent variables with node creation, table growth and freeing of nodes, rehashing, `reorderDone`, `SwapVariables`. The invariant of a reordering (`RI`) gives each node a function of variables that moves keep, counts references exactly (`Rf`) and the chains of the sub-tables (`Chn`). The reordering methods are sequences of moves, theorems hold for all sequences. `reorderDone` takes references away: `unmark` is recursive, so an external root reachable from one with smaller index is no longer marked and gets reference count 0 (`C53_false`). Literals are the first nodes of the table, so they are never affected. |
| C54 | P | `Bdd/Read*.lean`: the recursive functions over the node table with the in-place path profile, for any order of variables. A reduced ordered tree depends on every level it asks (`Ord.dep`), so paths ask named variables only. The paths to a constant cover each assignment exactly once (`pathsRec_spec`). Handles: those of C24 before, those the kernel keeps after a reordering (C53). |
| C55 | p | `Bdd/Pick*.lean`: the functions build the BDD of a term with `makeNode` (garbage collection and growth included) and read its literals from the table. Invariant: the node built so far is the tree of a term that implies the part of the BDD already visited, and everything protected before is kept (`Built`, `Grow`). Missing: `FullModel` invents literals for variables without a name (C55_full_false); `ModelWithVariables` after a reordering. |
| C56 | P | `Gen/*.lean`: loops of the generators as lists, the exactly-one and at-most-one constraints through the model of `EncodeCC` (C13, C34). Specification on boards, without formulas: `Placed`, `Clash`, `Attack`, `Solution`. Unsatisfiability by the pigeonhole principle on `Fin`, tightness by explicit seatings, the columns of the queens by injectivity of the column of a row. |
| C57 | p | `Enum/Canon.lean`: `canonicalEnumeration` on the model of the enumeration (C27). The solver may hold any formulas whose models restricted to the variables are those of the formula (`Carries`). Specification: `Table`, the list of rows of the truth table. Missing: with a handler that cancels one call of the solver the state is a success and the result wrong (C57_cancel_false). |
| C58 | p | `Bdd/Order.lean`: queue and recursion of the orderings, the profile, the insertion sort that `sort.Slice` is for at most 12 elements (a parameter for more), the hyper-graph and the loop of FORCE with rounding to 53 bits. Specification: `FirstIn` (order of first occurrences in a list), `occAt` (occurrences at a depth). Missing: `ForceOrder` need not return (C58_force_returns_false); orders by occurrences for more than 12 variables. |
| C59 | p | `Bdd/NormalForm.lean`: `compute` composed of the models of ordering (C58), compilation (C51), reading of paths (C54), unit propagation (C36) and NNF (C08); `Simpl/UnitsShape.lean` proves that unit propagation of a CNF gives a CNF over its variables. Specification: `isCNF`, `isDNF`, `eval`, `vars`. Missing: `ForceOrder` need not return (C59_returns_false). |
| C60 | p | `Enum/Split.lean`: `VarOccurrences` with its map, the stable sort of the keys in any order of iteration, the product of size and rate rounded to 53 bits, slicing with its panic; the strategies as configurations of the model of C27. Specification: `Core.occ` (counting), `Before` (preference). The occurrences are those of any core solver with one name per index. Missing: negative maximum (C60_negative_false), fixed provider with other variables (C60_fixed_false), unknown variables (C27_diverges). A rate that is not a number is accepted by the constructors and not modelled. |
| C61 | p | `Sat/OnSolver.lean`: `FormulasOnSolver` on the core solver of C17 (clauses, at-most clauses, literals of level 0, false); the set of formulas is a list, a clause is a disjunction, the cast of the bound to uint32 is the identity. Specification: `Fm.eval` on one side, `Models` of what was added on the other. Proved with the invariant `K` that a variable of level 0 has a value. Missing: histories with `LoadState` (C61_load_false). |
| C62 | p | `Enum/ToBdd.lean`: the collector of `enumeration_bdd.go` in the iteration of C27 (simulated by the one of `enumeration.go`), its calls as a history of the kernel of C23 and C24. Specification: walking through the node table (`walk`) against `Sat`. The factory shared by solver and kernel is not part of it. `Enum/Cancel.lean`: exactness on success with handlers that stay cancelled (C62_success). Missing: success after a cancelled call of the solver with other handlers (C62_cancel_false, as C27). |
| C63 | P | `Data/Bitset.lean`: `bitset.go`, `bitsetComp`, `toArray` on lists of 64 bit vectors; `OnesCount64`, `TrailingZeros64`, `LeadingZeros64` by their documentation. Specification: membership (`get`), `IsLeast`, `Finset.card`. Indices are natural numbers (no overflow of `int32`, no panic for negative ones); `clone` is the identity. |
| C64 | p | `Randomizer/*`: the generating functions over an arbitrary stream of numbers and arbitrary orders of maps, with fuel for the rejection loops and an explicit panic of `Intn`; weights are natural numbers compared exactly (the rounding of `float64` and the names made by `generateVars` are not modelled). Specification: `Path`, `Sub` of C41 and `Allowed`. Missing, because false of the code: termination (C64_not_false, C64_pbc_false), maximal numbers of operands (C64_ops_false, C64_panic_false), weight 0 of atoms (C64_weight_false), the seed with cardinality constraints (C64_seed_false). |
| C65 | p | `Io/Wcnf.lean`: `ReadDimacsToSolver` on characters (one byte each), with `Atoi` on 64 bits, the scanner and its limit, the rounding of `float64`; the result is the list of calls on the solver. Specification: `Problem`, its file (`file`) and the demanded calls (`Demands`). What the calls do is C28, C29. Missing, because false of the code: errors for malformed files (C65_header_false, C65_panic_false, C65_zero_false, C65_silent_false, C65_long_false), comments after the header (C65_comment_false), names of variables beyond 2^53 (C65_names_false). |
| C66 | p | `Io/FormulaFile.lean`: `WriteFormulaToWriter`, `ReadFormulasFile`, `ReadFormulaFile` on characters, on top of printer and parser of C33 (formulas as trees, whose refinement by the factory is C01-C04) and the scanner of C32. Opening and creating files and failures of the operating system are not modelled. Missing, because false of the code: errors for malformed lines (C66_panic_false, C66_garbage_false), names outside of identifiers (C66_names_false, C66_newline_false). |
| C67 | p | `Graphical/Formula.lean`: both generators of `formula/graphical.go` on trees, with the generator of labels and styles; a pointer to a node is the number in its id, the map of the graph generator is the list of its keys. Specification: `Shows`, the occurrences of subformulas (`allNodes`, C41). The text formats (DOT, Mermaid) are not modelled. Missing, because false of the code: label functions for literals of the graph (C67_label_false). |
| C68 | p | `Assignment/Handles.lean`: `Assignment` and `Model` on the ids of literals (positive odd, negation by the last bit; C01, C04), maps as sets read in any order, sorting as any sorted permutation. `Model.Formula` is `Minterm` (C02). Missing, because false of the code: `Assignment.NegVars` (C68_negVars_false). |
| C69 | P | `Bdd/Graph.lean`: `NodeRepresentation` with its map of nodes, and `GenerateGraphical` for BDDs with `index2Node`, on the kernel model of C23, C53 and C55. The specification reads the value of an assignment along the edges (`Value`, `GValue`). For the text of DOT files see C70. |
| C70 | p | `Graphical/Dot.lean`: the DOT writer on lists of characters; the writer never fails. Specification: `Same`, what two drawings show. `Graphical/Content.lean`: each node and edge has its line with the attributes under their names. Missing, because false of the code: labels with quotes (C70_quote_false). |
| C71 | p | `Graphical/Mermaid.lean`: the Mermaid writer on lists of characters; the writer never fails and no style is nil. Specification: `MSame`, what two drawings show in Mermaid (no background, no alignment). `Graphical/Content.lean`: each node and edge has its line with the attributes under their names. Missing, because false of the code: labels with quotes and colors with commas (C71_quote_false, C71_comma_false). |
| C72 | P | `Graph/Graphical.lean`: arbitrary calls of `AddNode` and `Connect` on the graphs of C40, `Neighbours`, and `GenerateGraphicalFormulaGraph` with its maps `nodes` and `visited`. Specification: `Known`, `Joined` on the calls and `between` on the edges of the drawing. |
| C73 | P | `Graphical/Color.lean`: `ColorFromRgb` with `%02x` as digits to the base 16 with padding. Specification: `rgbOf` reads a text `#rrggbb`. |
| C74 | P | `Explain/Order.lean`: `String` of propositions and `PropComparator`; texts are lists of bytes, the text of a formula is an arbitrary function of its handle. Specification: the laws of an order, and `SortedBy` for the results of `slices.SortFunc`. |
| C75 | P | `NormalForm/Terms.lean`: `testTerm`, `ContainsPBC` on formulas as trees. Specification: the shapes of the terms, and `Constraint` on the list of all subformulas. |

## Defects found in the code

Each is proved as a theorem about the model with a concrete witness; the corresponding property is kept as `_partial` (or restricted by its statement).

* `Minterm`/`Clause` store unchecked operands under the sorted key, so a later `And`/`Or` may return them (C01, C05).
* Formula ids overflow silently after 2^28 (C01).
* `FactorizationHandler` keeps its cancelled flag between uses (C09).
* `PGCNF` with a reused `CNFAuxState` is unsound after a small formula (C11).
* AMO encoders with certain configured sizes do not terminate (C12).
* `directSorter` on a solver adds clauses of zero literals (C13).
* `Normalize` of equations with leading zero coefficients compares with the wrong right-hand side (C15, C16).
* Adder networks ignore bit 31 of the right-hand side (C16).
* Native at-most clauses with `ClauseMinBasic`: `simplifyClause` (core.go:1056-1074) reads an at-most reason as if it were a clause, so literals are dropped wrongly, a clause that does not follow is learnt, and a later call answers UNSAT for a satisfiable problem (C18_atMost_false, C50_atMost_false).
* At-most clauses with a repeated literal have two watchers in the same list; `removeWatcher` (core.go:763-769) deletes while ranging over the list with the old length (not modelled; the theorems ask for distinct literals).
* With `UseAtMostClauses`, `Add` sorts the literals of a constraint inside the factory; the same `CC` call then gives another handle (C51).
* Cancelling at a conflict drops the learnt conflict and leaves the solver in a state with wrong later answers (C21).
* BDD model and path counts alias cached big integers (C25, C49); results of Restrict/Exists/ForAll are not referenced (C24);
  `CompileLiterals` of no literals is false (C24).
* `reorderDone` (reordering.go:197-211) unmarks recursively and sets the reference count of unmarked nodes to 0, so a held BDD that is part of a held BDD with smaller index is no longer referenced after a reordering; the next reordering frees it (C53).
* The DNNF compiler loses models and counts wrongly: a node and its left child share one variable set, and literals implied before a restart at the same level enter cached
  formulas whose key does not mention them (C26).
* Model iteration: divergence with unknown variables, cancelled calls and cancelled recursions reported as success if the handler resumes afterwards, additional variables (C27).
* Providers of split variables: a negative maximum panics, and a fixed provider with variables that are not enumerated makes the iteration report models repeatedly (C60).
* `completeBacktrack` does not reset the levels: after `Add(A|B)`, `SaveState`, `Add(A)`, `LoadState`, `FormulasOnSolver` returns `¬A` besides `A|B` (C61); `VarOccurrences` counts one occurrence of `A` too many.
* The randomizer panics if `MaximumOpsAnd` or `MaximumOpsOr` is 2, never draws the maximal number of operands but exceeds it by flattening, does not return from `Not(2)` if only literals and constants have weights nor from `PBC` if `MaximumOpsPBC` is 1, draws exactly-one constraints if all atoms have weight 0, and gives different formulas for the same seed because `ccVariables` iterates over a map (C64).
* The reader of MaxSAT problems takes hard clauses for soft ones if the header has two blanks in a row, loses the last literal of a clause without closing zero, panics at a line with one number, refuses comments and blank lines after the header, and silently drops everything from a line of 64 KiB on (C65).
* `ReadFormula(s)` panics at a line that is no formula although it returns an error value, and drops what follows a formula in its line (C66).
* `GenerateGraphicalFormulaDAG` ignores the configured label function for literals (C67).
* `Assignment.NegVars` returns the negative literals, cast to variables, although it says "the variables, not the negative literals" (C68).
* `WriteDotToWriter` does not escape quotes in labels: the label `a", color="red` gives the text of the label `a` with a red border (C70).
* `WriteMermaidToWriter` does not escape quotes in labels or commas in colors: one node can give the text of two (C71).
* Insertion-based MUS of an empty list (C28).
* MaxSAT loading: the constant false is dropped, repeated literals (C31); `subsetSum` loop diverges (C42).
* WMSU3 without incremental strategy: the same encoding makes it skip the optimum; in the lexicographic mode it never lowers the current weight and loops (C30).
* WBO with symmetry breaking (the default) and different weights: a soft clause that is split passes its relaxation variables to both parts, but `symmetryBreaking` treats relaxations as exchangeable. Hard ¬a, ¬b, ¬c, ¬d, soft a (2), b (1), c (2), d (1), x (1): for certain conflicts the search reports 7 although 6 is the least cost (C30_wbo_symmetry_false). The conflicts are all implied by the clauses on the solver; whether the CDCL solver of the library returns exactly these is not claimed.
* IncWBO has the same defect: hard ¬a, ¬b, ¬c, soft a (2), b (1), c (2), x (1): 6 is reported, 5 is the least cost (C30_incwbo_symmetry_false). `incComputeCostModel` also counts a deactivated soft clause if it is empty; the API only adds soft clauses of one literal, so C30_incwbo_partial excludes empty ones.
* MaxSAT Solve after a cancelled SolveWithHandler returns the empty result of the cancelled call (not satisfiable), because `ok` is set in any case (C45_cancelled_false).
* MaxSAT: a call cancelled at `MaxSatCallFinished` returns before `loadState`; counters, bounds, relaxation variables and added clauses remain. LinearUS then takes the first model for an optimum: soft formula a (1), such a call, hard formula b, Solve reports 1 instead of 0 (C45_finish_false).
* WMSU3 sets `currentWeight` to 1 before the state is saved: Solve, AddHardFormula, Solve panics with "does not support unweighted" (C45_wmsu3_false; weights 3, 2, 2).
* WBO and unweighted OLL report unsatisfiable hard clauses with `Result{}` (Optimum 0) where the other searches use `unsat()` (Optimum −1); the model has one `unsat` for both.
* LinearSU on weighted problems: the weight encoding excludes a literal that alone remains below the bound, so better solutions are lost (C30).
* DIMACS reader accepts malformed lines (C32).
* Minimum prime implicants need not be prime or minimum (C37).
* Heap `remove` breaks the heap order; bounded queue `growTo` keeps the sum (C39).
* AIG of equivalences (C47); optimisation models lack unknown literals (C48).
* `FullModel` of a BDD in a kernel that has more variables than names has a negative literal of a variable with the empty name for each of them; `createModel` drops the result `false` of `getVariableForIndex` (C55_full_false).
* `bdd.ForceOrder` never returns for some formulas (C58_force_returns_false): for the CNF with the clauses (4 0 1)(2 3 0)(0 3 1)(-0 3 1)(2 0 4)(0 -3 1) the loop of `force` alternates between the orderings 4 0 1 2 3 and 4 1 2 0 3. It stops only at a fixed point and has no bound for the number of rounds.

## What "proved" means here

A property is marked proved only if its theorems cover its whole statement and quantifier. On 2026-11-17 the claims were compared with their statements and ten were
lowered to partial, with their theorems renamed to end in `_partial`:

- C18, C20, C22, C50: stated for every formula and configuration; false for native at-most clauses with `ClauseMinBasic`, and repeated literals in them are excluded; for C50 false where the encoders are (`C50_eq_false`), and `CNFFactory` with constraints inside formulas is not covered.
- C46: stated for every formula; excluded are exactly the constraints for which C13 and C16 fail (`Encodable`), with a witness (`C46_eq_false`).
- C13: stated for every bound; `< 0` is not modelled, and the claim is false for the result on a solver.
- C29, C40, C43: use solvers, counters or optimisers as hypotheses whose own properties are partial or not proved.

## Mutation log

The runner used for the first 274 lines of `seeded/LOG.jsonl` counted every build error as a kill. Each of these lines was checked again: none is an edit that merely does
not compile, but line 217 (`Io.varId`, numbering from 0) lists failing examples only, so no theorem had been shown to catch it; the edit is repeated in a later line.
The runner now leaves out edits that do not compile.
