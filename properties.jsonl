{"id": "C01", "title": "Scoped vector restores the contents at the matching push", "statement": "For every history of push_back / push / pop on a scoped vector, the elements visible after the history are exactly those of a stack of snapshots: a pop brings back precisely the elements present at the matching push, and a pop without a matching push is reported as an error and changes nothing.", "quantifier": "all finite histories of push_back, push and pop, over every element type", "why_tests_cant": "tests run a handful of nestings; the claim is about every interleaving and depth", "anchors": ["dreal/util/scoped_vector.h: ScopedVector::push_back, push, pop"]}
{"id": "C02", "title": "Scoped map restores bindings at the matching push", "statement": "For every history of insert / push / pop on a scoped map, look-ups answer as if the map were copied at each push and the copy reinstated at the matching pop, including keys overwritten several times inside one scope and keys first inserted inside a scope.", "quantifier": "all finite histories of insert, push, pop; all keys and values", "why_tests_cant": "the undo log is replayed in reverse; only an induction over histories covers repeated overwrites across nested scopes", "anchors": ["dreal/util/scoped_unordered_map.h: ScopedUnorderedMap::insert, push, pop"]}
{"id": "C03", "title": "Scoped set restores membership at the matching push", "statement": "For every history of insert / push / pop on a scoped set, membership answers as if the set were copied at each push and reinstated at the matching pop.", "quantifier": "all finite histories of insert, push, pop; all elements", "why_tests_cant": "same as C02: unbounded nesting and repeated insertion", "anchors": ["dreal/util/scoped_unordered_set.h: ScopedUnorderedSet::insert, push, pop"]}
{"id": "C04", "title": "Option precedence", "statement": "After any sequence of assignments to an option coming from an input file, from the command line and from code, the value a user reads is the last assignment of the highest-ranked source that assigned at all (code over command line over file over default).", "quantifier": "all finite sequences of assignments from the three sources and all values", "why_tests_cant": "tests check pairs of assignments; the claim ranges over every interleaving", "anchors": ["dreal/util/option_value.h: OptionValue::set_from_file, set_from_command_line, operator=, get"]}
{"id": "C05", "title": "Bisecting a box loses no point and creates none", "statement": "When a box is bisected on a bisectable coordinate, every point of the box that respects the variable types lies in one of the two halves, every point of a half lies in the box, coordinates other than the bisected one are unchanged; for an integer coordinate the two halves share no point, and neither half is empty.", "quantifier": "all boxes, all coordinates, all real points; every position of the midpoint", "why_tests_cant": "a real interval has uncountably many points; a test only samples some", "anchors": ["dreal/util/box.cc: Box::bisect, bisect_int, bisect_continuous"]}
{"id": "C06", "title": "Branching picks a widest splittable coordinate", "statement": "The coordinate offered for branching is bisectable, belongs to the requested set and has a diameter not smaller than that of any other bisectable coordinate of that set; no coordinate is offered only if none in the set has positive diameter and is bisectable.", "quantifier": "all boxes and all sets of candidate coordinates", "why_tests_cant": "depends on every arrangement of widths, ties and non-bisectable coordinates", "anchors": ["dreal/util/box.cc: Box::MaxDiam", "dreal/solver/brancher.cc: FindMaxDiam, BranchLargestFirst"]}
{"id": "C07", "title": "Boxes are values", "statement": "Copying a box and then adding variables to, or changing intervals of, one copy never changes what any other copy reports (its variables, its intervals, its name-to-interval look-ups), although copies share their variable tables internally.", "quantifier": "all histories of creating, copying, extending, writing and reading any number of boxes", "why_tests_cant": "sharing bugs appear only for particular histories of copies and extensions", "anchors": ["dreal/util/box.cc: Box::Add, Box::operator[], Box::has_variable"]}
{"id": "C08", "title": "Access by variable touches that variable only", "statement": "Reading or writing a box through a variable concerns that variable's interval only; for a variable that is not in the box no interval of another variable is returned or overwritten and the box does not start to claim it has the variable.", "quantifier": "all boxes and all variables, declared or not", "why_tests_cant": "unit tests only use declared variables", "anchors": ["dreal/util/box.cc: Box::operator[](const Variable&), Box::index, Box::has_variable", "dreal/solver/context_impl.cc: Context::Impl::SetInterval, AddToBox"]}
{"id": "C09", "title": "Negation normal form keeps the meaning", "statement": "Converting a formula to negation normal form yields a formula true in exactly the same valuations, in which negation occurs only in front of atoms (or, when relations are also flipped, only in front of Boolean variables and quantified formulas).", "quantifier": "all formulas of every depth, all real and Boolean valuations", "why_tests_cant": "infinitely many formulas; tests show a dozen", "anchors": ["dreal/util/nnfizer.cc: Nnfizer::Convert, VisitConjunction, VisitDisjunction, VisitNegation, VisitForall"]}
{"id": "C10", "title": "Distributive CNF keeps the meaning and is in CNF", "statement": "Converting a formula with the naive CNF conversion yields a formula true in exactly the same valuations, and the result is a conjunction of clauses of literals.", "quantifier": "all formulas, all valuations", "why_tests_cant": "distribution is recursive over arbitrary nesting", "anchors": ["dreal/util/naive_cnfizer.cc: NaiveCnfizer::Convert, VisitDisjunction, VisitConjunction, VisitEqualTo, VisitNotEqualTo"]}
{"id": "C11", "title": "Definitional CNF is equisatisfiable over the user's variables", "statement": "A valuation of the user's variables satisfies a formula exactly when it can be extended, on the auxiliary variables only, to satisfy all the clauses produced by the definitional CNF conversion; every produced formula is a clause and the conversion never hits its unreachable branch.", "quantifier": "all formulas, all valuations", "why_tests_cant": "auxiliary variables nest arbitrarily; only an induction shows no polarity is lost", "anchors": ["dreal/util/tseitin_cnfizer.cc: TseitinCnfizer::Convert, Cnfize, CnfizeConjunction, CnfizeDisjunction, CnfizeNegation"]}
{"id": "C12", "title": "Predicate abstraction is faithful over any history", "statement": "Over any sequence of abstraction requests, two relational atoms get the same Boolean variable exactly when they are the same atom, replacing each Boolean variable by its atom gives back a formula with the meaning of the input, and a variable once handed out never changes its meaning.", "quantifier": "all sequences of formulas, all valuations", "why_tests_cant": "the table is shared by all requests of a solver's life", "anchors": ["dreal/util/predicate_abstractor.cc: PredicateAbstractor::Convert, VisitAtomic, VisitGreaterThan, VisitNotEqualTo"]}
{"id": "C13", "title": "If-then-else elimination keeps the solutions", "statement": "Eliminating if-then-else terms yields a formula free of them, whose satisfying valuations, restricted to the user's variables, are exactly those of the input, including nested and guarded terms and terms under quantifiers.", "quantifier": "all formulas with arbitrarily nested if-then-else terms, all valuations", "why_tests_cant": "nesting of conditions inside conditions is unbounded", "anchors": ["dreal/util/if_then_else_eliminator.cc: IfThenElseEliminator::Process, VisitIfThenElse, VisitForall"]}
{"id": "C14", "title": "Formula construction means what it says", "statement": "Building conjunctions, disjunctions, negations, implications, equivalences and relations through the API gives a formula whose truth value is the corresponding combination of the truth values of the parts, whatever simplifications (flattening, deduplication, constant folding) happen on the way.", "quantifier": "all formulas and valuations, all orders of construction", "why_tests_cant": "simplification depends on the shape of both operands", "anchors": ["third_party/com_github_robotlocomotion_drake/dreal/symbolic/symbolic_formula.cc: operator&&, operator||, operator!, make_conjunction, make_disjunction, operator==", "dreal/symbolic/symbolic.cc: imply, iff"]}
{"id": "C15", "title": "Substitution means evaluation in the updated valuation", "statement": "Substituting expressions and formulas for variables and then evaluating gives the same result as evaluating the original with the variables re-bound to the values of the substitutes, also under quantifiers.", "quantifier": "all formulas, all substitutions, all valuations", "why_tests_cant": "variable capture shows only for particular bound names", "anchors": ["third_party/com_github_robotlocomotion_drake/dreal/symbolic/symbolic_formula_cell.cc: FormulaForall::Substitute", "third_party/com_github_robotlocomotion_drake/dreal/symbolic/symbolic_formula.cc: Formula::Substitute"]}
{"id": "C16", "title": "The structural order is a strict total order", "statement": "The order used to store formulas and expressions in ordered sets and maps is irreflexive, transitive, and leaves two terms unordered exactly when they are structurally equal, so that no constraint is dropped as a duplicate of a different one.", "quantifier": "all pairs and triples of expressions and formulas", "why_tests_cant": "ordered-container corruption needs specific triples", "anchors": ["third_party/com_github_robotlocomotion_drake/dreal/symbolic/symbolic_formula_cell.cc: Less, EqualTo", "third_party/com_github_robotlocomotion_drake/dreal/symbolic/symbolic_expression_cell.cc: ExpressionRealConstant::Less, EqualTo"]}
{"id": "C17", "title": "Delta-strengthening and weakening bracket the formula", "statement": "For every non-negative delta, whenever the delta-strengthened formula holds the formula holds, and whenever the formula holds its delta-weakening holds.", "quantifier": "all quantifier-free formulas, all valuations, all delta >= 0", "why_tests_cant": "monotonicity must survive every nesting of negation and arithmetic", "anchors": ["dreal/symbolic/symbolic.cc: DeltaStrengthenVisitor, DeltaStrengthen, DeltaWeaken"]}
{"id": "C18", "title": "Interval verdicts on relations are right", "statement": "If a relation is reported valid on a box, every point of the box satisfies it; if it is reported unsatisfiable no point does; if it is reported undecided with error at most delta, every point satisfies its delta-weakening. The same holds for negated relations.", "quantifier": "all relations, all boxes, all real points of the box", "why_tests_cant": "the claim ranges over a continuum of points", "anchors": ["dreal/solver/relational_formula_evaluator.cc: RelationalFormulaEvaluator::operator()"]}
{"id": "C19", "title": "Interval evaluation encloses point evaluation", "statement": "Evaluating an expression on a box yields an interval that contains the value of the expression at every point of the box.", "quantifier": "all expressions, all boxes, all points", "why_tests_cant": "continuum of points, unbounded expression depth", "anchors": ["dreal/solver/expression_evaluator.cc: ExpressionEvaluator::Visit*"]}
{"id": "C20", "title": "Absorbing a bound keeps the solutions", "statement": "When an asserted bound on a variable is absorbed into the variable's interval instead of being kept as a constraint, the points of the new interval are exactly the points of the old one that satisfy the bound, for strict and non-strict bounds, equalities, negations and every variable type; when it is reported as not absorbed no solution is lost.", "quantifier": "all simple bounds, polarities, variable types, intervals and double constants", "why_tests_cant": "the behaviour depends on the neighbouring double of each of 2^64 constants", "anchors": ["dreal/solver/filter_assertion.cc: FilterAssertion, UpdateStrictLowerBound, UpdateStrictUpperBound, UpdateBoundsViaEquality"]}
{"id": "C21", "title": "Pruning never loses a solution and never enlarges a box", "statement": "Every pruning operator the solver assembles (sequence, join, fixpoint, worklist fixpoint, integer rounding, and the atomic interval contractors it is given) returns a sub-box that still contains every solution of its constraints that the input box contained.", "quantifier": "all compositions of pruning operators, all boxes, all points", "why_tests_cant": "compositions nest arbitrarily and solutions are uncountable", "anchors": ["dreal/contractor/contractor_seq.cc, contractor_join.cc, contractor_fixpoint.cc, contractor_worklist_fixpoint.cc, contractor_integer.cc, contractor.cc: Prune, make_contractor_*"]}
{"id": "C22", "title": "Constraint-directed pruning of a whole formula is sound", "statement": "The pruning operator generated from a Boolean combination of relations never removes a point satisfying the combination.", "quantifier": "all negation-normal formulas of relations, all boxes, all points", "why_tests_cant": "nesting of conjunction and disjunction is unbounded", "anchors": ["dreal/contractor/generic_contractor_generator.cc: GenericContractorGenerator::Generate, Visit*"]}
{"id": "C23", "title": "Branch-and-prune never misses a solution", "statement": "If branch-and-prune search ends with the answer 'no solution', no point of the initial box satisfies all constraints, for every branching order and every pruning operator that is sound.", "quantifier": "all constraint sets, boxes, branching choices and lengths of the search", "why_tests_cant": "the search tree is unbounded", "anchors": ["dreal/solver/icp_seq.cc: IcpSeq::CheckSat", "dreal/solver/icp.cc: EvaluateBox"]}
{"id": "C24", "title": "A delta-sat answer is delta-true on the whole returned box", "statement": "If the search answers delta-sat, the returned box is a non-empty part of the initial box and every one of its points satisfies the delta-weakening of every constraint.", "quantifier": "all constraint sets, boxes, delta > 0, all points of the returned box", "why_tests_cant": "continuum of points and unbounded search", "anchors": ["dreal/solver/icp_seq.cc: IcpSeq::CheckSat", "dreal/solver/icp.cc: EvaluateBox", "dreal/solver/icp.h"]}
{"id": "C25", "title": "Parallel search agrees with the sequential guarantee under every schedule", "statement": "With any number of workers and under every interleaving of their steps, the parallel search answers 'no solution' only when no point of the initial box is a solution, answers delta-sat only with a box accepted by a worker, never leaves a box unexamined when all workers stop, and workers never stop early while a box is pending.", "quantifier": "all numbers of workers, all schedules, all search trees", "why_tests_cant": "schedules cannot be enumerated by testing", "anchors": ["dreal/solver/icp_parallel.cc: IcpParallel::CheckSat, Worker, ParallelBranch"]}
{"id": "C26", "title": "A reported conflict explanation is a real conflict", "statement": "Whenever the theory solver rejects a set of constraints, the subset it reports as explanation is a subset of the given constraints and has no common solution in the given box, so that the clause learned from it excludes no solution.", "quantifier": "all constraint sets, boxes and runs of the search", "why_tests_cant": "explanations are computed from the history of the whole search", "anchors": ["dreal/contractor/contractor_status.cc: ContractorStatus::AddUsedConstraint, Explanation, GenerateExplanation", "dreal/solver/theory_solver.cc: TheorySolver::CheckSat, GetExplanation"]}
{"id": "C27", "title": "Unsat means no solution", "statement": "If CheckSat answers unsat, no real valuation within the declared domains satisfies all asserted formulas.", "quantifier": "all sets of assertions, all runs of the SAT/theory loop, all SAT-solver choices", "why_tests_cant": "requires all models of the SAT solver and all theory verdicts", "anchors": ["dreal/solver/context_impl.cc: Context::Impl::CheckSatCore", "dreal/solver/sat_solver.cc: SatSolver::AddFormula, AddLearnedClause, CheckSat"]}
{"id": "C28", "title": "Delta-sat means delta-satisfied", "statement": "If CheckSat answers delta-sat with a box, the box lies within the declared domains and every one of its points satisfies the delta-weakening of every asserted formula.", "quantifier": "all sets of assertions, all runs, all points of the returned box", "why_tests_cant": "as for C24, through the Boolean structure", "anchors": ["dreal/solver/context_impl.cc: Context::Impl::CheckSatCore, CheckSat", "dreal/solver/sat_solver.cc: SatSolver::CheckSat"]}
{"id": "C29", "title": "An answer depends on the current problem, not on earlier queries", "statement": "After any history of declarations, assertions, interval updates and checks, an unsat answer still means that the current assertions have no solution within the current domains; in particular changing a domain with SetInterval after an unsat answer re-opens the question.", "quantifier": "all histories of API calls", "why_tests_cant": "stale learned facts need particular histories", "anchors": ["dreal/solver/context_impl.cc: Context::Impl::SetInterval, CheckSatCore", "dreal/solver/sat_solver.cc: SatSolver::AddLearnedClause"]}
{"id": "C30", "title": "Pop restores the problem", "statement": "After a push, any balanced sequence of calls and the matching pop, the assertions, the declared variables and their intervals are those before the push, and the answers are those of a context in which the scope was never opened.", "quantifier": "all histories with arbitrarily nested push/pop", "why_tests_cant": "state left over from a popped scope depends on the history", "anchors": ["dreal/solver/context_impl.cc: Context::Impl::Push, Pop", "dreal/solver/sat_solver.cc: SatSolver::Push, Pop", "dreal/solver/theory_solver.cc: contractor_cache_"]}
{"id": "C31", "title": "A model lists exactly the user's variables", "statement": "The model returned with a delta-sat answer assigns every variable the user declared that is currently in scope, and no auxiliary variable the solver introduced.", "quantifier": "all histories of declarations, assertions, pushes and pops", "why_tests_cant": "auxiliary variables and scopes interact", "anchors": ["dreal/solver/context_impl.cc: Context::Impl::ExtractModel, mark_model_variable, AddToBox"]}
{"id": "C32", "title": "The reported model respects types, domains and precision", "statement": "In the reported model every interval has width at most delta and lies in the variable's domain, and integer, binary and Boolean variables are assigned integral values of their domain.", "quantifier": "all boxes, all delta > 0", "why_tests_cant": "rounding in the final step depends on the interval", "anchors": ["dreal/solver/context_impl.cc: Tighten"]}
{"id": "C33", "title": "An assertion stays asserted", "statement": "Once a formula is asserted, every later delta-sat box satisfies its delta-weakening until the scope is popped, whatever declarations, re-declarations and interval updates happen in between.", "quantifier": "all histories of API calls", "why_tests_cant": "absorbed assertions leave no trace in the assertion list", "anchors": ["dreal/solver/context_impl.cc: Context::Impl::Assert, DeclareVariable, SetDomain, SetInterval", "dreal/solver/filter_assertion.cc: FilterAssertion"]}
{"id": "C34", "title": "A universally quantified constraint reported valid is valid up to delta", "statement": "If the evaluator of a universally quantified constraint reports it valid on a box, then for every point of the box the quantified formula holds.", "quantifier": "all quantified formulas, boxes and points; every order of declarations", "why_tests_cant": "requires all values of the quantified variables", "anchors": ["dreal/solver/forall_formula_evaluator.cc: ForallFormulaEvaluator::operator()"]}
{"id": "C35", "title": "Counterexample-guided pruning keeps solutions", "statement": "Pruning with a universally quantified constraint removes only points for which the quantified formula fails.", "quantifier": "all quantified formulas, boxes, counterexamples found, iterations", "why_tests_cant": "depends on every counterexample the inner solver may return", "anchors": ["dreal/contractor/contractor_forall.h: ContractorForall::Prune"]}
{"id": "C36", "title": "Minimize characterises the minimisers", "statement": "The constraint installed by Minimize on an objective holds exactly at the points that satisfy the asserted constraints related to the objective and at which the objective is no larger than at any other point satisfying them; Maximize is Minimize of the negated objective.", "quantifier": "all constraint sets and objectives, all valuations", "why_tests_cant": "quantifies over all competing points", "anchors": ["dreal/solver/context_impl.cc: Context::Impl::Minimize", "dreal/solver/context.cc: Context::Minimize, Maximize"]}
{"id": "C37", "title": "Options reported are the options in force", "statement": "After any sequence of SetOption calls, some of which may be rejected with an error, GetOption reports the value the solver uses.", "quantifier": "all sequences of option settings, valid or not, with or without command-line overrides", "why_tests_cant": "error paths and precedence combine", "anchors": ["dreal/solver/context_impl.cc: Context::Impl::SetOption, GetOption"]}
{"id": "C38", "title": "SMT-LIB names obey push/pop", "statement": "In an SMT-LIB script, a name declared inside a push/pop scope is not usable after the pop, and using an undeclared name is an error.", "quantifier": "all scripts of declarations, push and pop", "why_tests_cant": "scoping errors need scripts that reuse names after a pop", "anchors": ["dreal/smt2/parser.yy: command_push, command_pop", "dreal/smt2/driver.cc: Smt2Driver::RegisterVariable, lookup_variable"]}
{"id": "C39", "title": "SMT-LIB let means substitution", "statement": "A term with let bindings has the meaning of the body with the bindings substituted, at top level, under quantifiers and in function definitions.", "quantifier": "all terms with nested let, all valuations", "why_tests_cant": "let under a binder needs the right nesting of scopes", "anchors": ["dreal/smt2/parser.yy: let_binding_list, term (TK_LET)", "dreal/smt2/driver.cc: DeclareLocalVariable"]}
{"id": "C40", "title": "SMT-LIB forall with domains means what it says", "statement": "(forall ((y1 Real [a1,b1]) ...) body) holds exactly when body holds for all values of the listed variables within their bounds.", "quantifier": "all bodies, all bounds, all valuations, variables used in the body or not", "why_tests_cant": "variables not occurring in the body are an unusual input", "anchors": ["dreal/smt2/parser.yy: term (TK_FORALL), variable_sort"]}
{"id": "C41", "title": "Function definitions expand to their bodies", "statement": "Applying a function introduced by define-fun to arguments means the body with all parameters simultaneously replaced by the arguments; wrong argument counts are rejected.", "quantifier": "all bodies, all arguments (including applications nested in arguments), all valuations", "why_tests_cant": "parameters are replaced one after another; interference needs special arguments", "anchors": ["dreal/smt2/driver.cc: FunctionDefinition::operator()"]}
{"id": "C42", "title": "Quantified Boolean variables are eliminated correctly", "statement": "Eliminating universally quantified Boolean variables from a formula gives a formula that holds exactly when the original holds for all values of those variables.", "quantifier": "all formulas, all lists of Boolean variables, all valuations", "why_tests_cant": "exponentially many assignments", "anchors": ["dreal/smt2/driver.cc: Smt2Driver::EliminateBooleanVariables"]}
{"id": "C43", "title": "Decimal literals are enclosed", "statement": "The interval produced for a decimal literal contains the exact value of the literal and is a single point exactly when the literal is a double.", "quantifier": "all literals, both signs", "why_tests_cant": "rounding differs per literal", "anchors": ["dreal/util/string_to_interval.cc: StringToInterval"]}
{"id": "C44", "title": "Integer conversions are exact or rejected", "statement": "Converting a 64-bit integer literal to int or double either yields the same mathematical value or reports an error.", "quantifier": "all 2^64 inputs", "why_tests_cant": "boundary behaviour at 2^31 and 2^53", "anchors": ["dreal/util/math.cc: convert_int64_to_int, convert_int64_to_double, is_integer"]}
{"id": "C45", "title": "Workers never share per-thread data", "statement": "Within a parallel search with N jobs, the worker identities used to select per-thread contexts and contractors are pairwise distinct and smaller than N.", "quantifier": "all histories of creating and destroying thread pools and scheduling tasks", "why_tests_cant": "identity assignment is lazy and racy", "anchors": ["third_party/com_github_progschj_threadpool/ThreadPool/ThreadPool.h: ThreadPool, get_thread_id", "dreal/solver/forall_formula_evaluator.cc: GetContext", "dreal/contractor/contractor_ibex_fwdbwd_mt.cc: GetCtcOrCreate"]}
{"id": "C46", "title": "Local optimisation uses the constraints it is given", "statement": "The feasible set handed to the local optimiser for a constraint is the set of points satisfying the constraint, also for negated relations.", "quantifier": "all conjunctions of possibly negated relations, all points", "why_tests_cant": "needs the polarity of every literal", "anchors": ["dreal/optimization/nlopt_optimizer.cc: NloptOptimizer::AddConstraint, AddRelationalConstraint"]}
{"id": "C47", "title": "Products and powers are simplified without changing values", "statement": "Multiplying and exponentiating expressions through the API gives an expression whose value, where both are defined, is the product or power of the values.", "quantifier": "all expressions built from variables, constants, products and powers; all valuations", "why_tests_cant": "exponent-merging rules depend on sign and integrality of exponents", "anchors": ["third_party/com_github_robotlocomotion_drake/dreal/symbolic/symbolic_expression_cell.cc: ExpressionMulFactory::AddTerm, AddExpression", "third_party/com_github_robotlocomotion_drake/dreal/symbolic/symbolic_expression.cc: pow, operator*"]}
{"id": "C48", "title": "Sums are simplified without changing values", "statement": "Adding, subtracting and scaling expressions through the API gives an expression whose value is the corresponding combination of the values, and the stored normal form has no zero coefficient.", "quantifier": "all expressions built from variables, constants and sums; all valuations", "why_tests_cant": "cancellation and merging depend on all operands", "anchors": ["third_party/com_github_robotlocomotion_drake/dreal/symbolic/symbolic_expression_cell.cc: ExpressionAddFactory"]}
{"id": "C49", "title": "The conflict closure is the least one", "statement": "The explanation computed after a conflict consists exactly of the used constraints that are connected, through shared variables of used constraints, to the place of the conflict.", "quantifier": "all sets of used constraints and witnesses", "why_tests_cant": "reachability through chains of any length", "anchors": ["dreal/contractor/contractor_status.cc: GenerateExplanation"]}
{"id": "C50", "title": "Flattening pruning operators preserves the result", "statement": "Flattening nested sequences and dropping identity operators before composing does not change the result of pruning.", "quantifier": "all lists of pruning operators and boxes", "why_tests_cant": "nesting is arbitrary", "anchors": ["dreal/contractor/contractor.cc: Flatten, make_contractor_seq, make_contractor_fixpoint"]}
{"id": "C51", "title": "The constraint given to IBEX is the formula", "statement": "Where both sides of a relation have values, the constraint that is made for IBEX from the (possibly negated) relation holds for some values of its interval constants if the relation holds, and only if it holds when there are no interval constants; no constraint is made only for trivially true formulas and disequalities.", "quantifier": "all relations between normal-form expressions, all points", "why_tests_cant": "needs all nestings of normalised sums, products and powers, and all points", "anchors": ["dreal/util/ibex_converter.cc: IbexConverter::Convert, Visit*"]}
{"id": "C52", "title": "Symbolic derivatives are derivatives", "statement": "Where an expression is differentiable, the value of its symbolic derivative (used as the gradient by the local optimiser) is the derivative of its value; expressions with non-differentiable functions of the variable are refused.", "quantifier": "all expressions in normal form, all variables, all points", "why_tests_cant": "gradients at special points (zeros of factors) are rarely evaluated; needs all expressions and points", "anchors": ["third_party/com_github_robotlocomotion_drake/dreal/symbolic/symbolic_expression_cell.cc: Differentiate, DifferentiatePow", "dreal/optimization/nlopt_optimizer.cc: NloptOptimizerEvaluate"]}
{"id": "C53", "title": "The library call CheckSatisfiability decides its formula", "statement": "CheckSatisfiability(f) on a fresh context returns nothing only if f has no solution of the types of its variables; if it returns a box, the box has exactly the free variables of f, and each of its points satisfies the delta-weakening of f.", "quantifier": "all formulas, all configurations", "why_tests_cant": "soundness over all formulas and all points of the returned box", "anchors": ["dreal/api/api.cc: CheckSatisfiability", "dreal/solver/context_impl.cc: DeclareVariable, Assert, CheckSat"]}
{"id": "C54", "title": "The answers to an SMT-LIB script are right", "statement": "When a check-sat of a script prints unsat, the problem the commands before it state (declarations with bounds, definitions, assertions, by the meaning of SMT-LIB terms) has no solution; when it prints delta-sat, the model has exactly the declared constants of the script, and each of its points satisfies the bounds and the delta-weakening of the assertions.", "quantifier": "all scripts, all configurations", "why_tests_cant": "end-to-end soundness over all scripts: front end, context, SAT solver, theory solver and the shared counter of variable ids together", "anchors": ["dreal/smt2/run.cc: RunSmt2", "dreal/smt2/driver.cc: CheckSat", "dreal/smt2/parser.yy: actions", "dreal/solver/context_impl.cc: DeclareVariable, SetInterval, Assert, CheckSat"]}
{"id": "C55", "title": "Unsat after Minimize means there is no optimum", "statement": "If a check after Minimize(objectives), or the library call Minimize(objective, constraint), answers unsat, the problem posed so far has no optimum: no solution than which no other solution is better in all the objectives.", "quantifier": "all histories of calls, all objectives, all configurations", "why_tests_cant": "soundness over all problems and all points; the generated constraint has a quantifier over all other solutions", "anchors": ["dreal/solver/context_impl.cc: Minimize, Assert, CheckSat", "dreal/api/api.cc: Minimize"]}
{"id": "C56", "title": "The answers for dr problems are right", "statement": "An answer is printed for a dr problem only if all its names are declared. Without costs: unsat means that no point within the declared bounds satisfies the constraints; delta-sat comes with a model that has one variable per declaration, each point of which is within the bounds and satisfies the delta-weakening of the constraints. With costs: unsat means that there is no optimum.", "quantifier": "all dr problems (as trees), all configurations, all points", "why_tests_cant": "end-to-end soundness over all problems and all points", "anchors": ["dreal/dr/parser.yy: actions", "dreal/dr/driver.cc: Solve, DeclareVariable, Minimize, lookup_variable", "dreal/dr/run.cc: RunDr"]}
{"id": "C57", "title": "Printed expressions and formulas can be read back", "statement": "The text that ToPrefix gives for an expression or formula (also printed by get-value) is accepted by the SMT-LIB front end as a term, and that term has the same value as the expression or formula for all values of the variables.", "quantifier": "all expressions and formulas in normal form, all names, all values of the variables", "why_tests_cant": "round trip over infinitely many terms of any depth; tests compare single strings", "anchors": ["dreal/symbolic/prefix_printer.cc: all visitors, print_constant, ToPrefix", "dreal/smt2/scanner.ll: words and numbers", "dreal/smt2/parser.yy: term"]}
{"id": "C58", "title": "The values printed by get-value are values of the terms", "statement": "After a delta-sat answer, get-value prints for every term asked for a value or an interval, as numbers of SMT-LIB, that contains the value of the term at every point of the model; for Boolean names it prints the truth value.", "quantifier": "all scripts, all terms, all points of the model, all configurations", "why_tests_cant": "soundness of printed enclosures over all scripts, terms and points; tests compare single strings", "anchors": ["dreal/smt2/driver.cc: GetValue, ToRational, ToString, PrintModel", "dreal/smt2/parser.yy: command_get_value"]}
{"id": "C59", "title": "Refining counterexamples by local optimisation is harmless and looks for counterexamples", "statement": "The refiner of counterexamples changes only the quantified variables, each to a single value, so pruning with refined counterexamples keeps all solutions of the quantified constraint. The problem it gives to the local optimiser is feasible exactly at the points that satisfy the query for a counterexample, and its objective measures by how much the mixed inequalities are satisfied.", "quantifier": "all queries, all boxes, all results of the optimiser", "why_tests_cant": "soundness over all queries, points and optimiser results", "anchors": ["dreal/contractor/counterexample_refiner.cc: CounterexampleRefiner, Refine", "dreal/contractor/contractor_forall.h: Prune", "dreal/solver/filter_assertion.cc: FilterAssertion"]}
{"id": "C60", "title": "minimize and maximize in scripts are right about problems without optimum", "statement": "If the check after (minimize t) or (maximize t) in an SMT-LIB script answers unsat, the problem that the script states, in the sense of SMT-LIB, has no solution at which the value of t is least (greatest).", "quantifier": "all scripts, all objective terms, all solutions, all configurations", "why_tests_cant": "end-to-end soundness over all scripts and points; the generated constraint quantifies over all other solutions", "anchors": ["dreal/smt2/parser.yy: command_minimize, command_maximize", "dreal/solver/context.cc: Minimize, Maximize", "dreal/solver/context_impl.cc: Minimize, CheckSat"]}
{"id": "C61", "title": "Evaluation gives the value", "statement": "Evaluating an expression or formula in an environment returns its value at that point (with exact arithmetic), whenever it has one and its variables have entries; it throws where the expression has no value.", "quantifier": "all expressions and formulas, all environments", "why_tests_cant": "agreement with real semantics over all terms of any depth and all points, including points outside of domains", "anchors": ["third_party/com_github_robotlocomotion_drake/dreal/symbolic/symbolic_expression_cell.cc: Evaluate, DoEvaluate, check_domain", "third_party/com_github_robotlocomotion_drake/dreal/symbolic/symbolic_formula_cell.cc: Evaluate", "third_party/com_github_robotlocomotion_drake/dreal/symbolic/symbolic_environment.cc"]}
{"id": "C62", "title": "The local optimiser gets values and gradients", "statement": "The function that NLopt calls returns the value of the objective or constraint at the point asked for, and the gradient it writes are the partial derivatives there in the order of the box; the cache of derivatives does not change any of this, whatever was asked before and whatever exceptions there were.", "quantifier": "all expressions, all boxes, all points, all histories of calls", "why_tests_cant": "arbitrary histories of calls and all points; derivatives are limits", "anchors": ["dreal/optimization/nlopt_optimizer.cc: NloptOptimizerEvaluate, Optimize", "dreal/optimization/cached_expression.cc: Differentiate, Evaluate"]}
{"id": "C63", "title": "IsDifferentiable finds exactly the expressions with kinks", "statement": "IsDifferentiable returns true for an expression or formula exactly if no absolute value, minimum, maximum, if-then-else, or uninterpreted function (and, for a formula, no quantifier) occurs in it at any depth; for these, Differentiate is supported by every variable, so that the gradient-based optimiser chosen on this ground gets the partial derivatives.", "quantifier": "all expressions and formulas, all variables", "why_tests_cant": "exactness over terms of any depth", "anchors": ["dreal/symbolic/symbolic.cc: IsDifferentiableVisitor, IsDifferentiable", "dreal/contractor/counterexample_refiner.cc: CounterexampleRefiner"]}
{"id": "C64", "title": "Expanding keeps the value", "statement": "Expand returns a normal form that has the same value at every point at which the expression has one; so if (p.Expand() - q.Expand()).EqualTo(0), the test documented in the header, then p and q are equal there. For polynomials the test is also complete.", "quantifier": "all expressions, all points", "why_tests_cant": "expressions and exponents are unbounded; equality is over all points", "anchors": ["third_party/com_github_robotlocomotion_drake/dreal/symbolic/symbolic_expression_cell.cc: Expand, ExpandMultiplication, ExpandPow, DivExpandVisitor", "third_party/com_github_robotlocomotion_drake/dreal/symbolic/symbolic_expression.h: Expand, EqualTo"]}
{"id": "C65", "title": "Substitution and partial evaluation", "statement": "After a (simultaneous) substitution an expression has at every point the value that it had with its variables set to the values of the replacements; in particular EvaluatePartial keeps the value at the points that agree with the environment.", "quantifier": "all expressions, all substitutions, all environments, all points", "why_tests_cant": "the substitution rebuilds the expression with simplification, so the claim is about all rewritings at all points", "anchors": ["third_party/com_github_robotlocomotion_drake/dreal/symbolic/symbolic_expression_cell.cc: Substitute", "third_party/com_github_robotlocomotion_drake/dreal/symbolic/symbolic_expression.cc: Substitute, EvaluatePartial"]}
{"id": "C66", "title": "What a cell records about itself is right", "statement": "The attributes that the constructors compute once are right for every expression and formula: the (free) variables are those that occur, and the value depends on no others; include_ite is true exactly if there is an if-then-else in it; is_polynomial is true only of polynomials.", "quantifier": "all expressions and formulas, all points", "why_tests_cant": "attributes are combined bottom-up over terms of any size; dependence on variables and being a polynomial are statements about all points", "anchors": ["third_party/com_github_robotlocomotion_drake/dreal/symbolic/symbolic_expression_cell.cc: ExpressionCell, determine_polynomial, determine_include_ite, ExtractVariables", "third_party/com_github_robotlocomotion_drake/dreal/symbolic/symbolic_formula_cell.cc: FormulaCell, ExtractFreeVariables"]}
{"id": "C67", "title": "A check ends", "statement": "Every call of CheckSat returns or throws after finitely many steps: the fixpoint loops of contractors, the search of the theory solver, and the loop between the SAT solver and the theory solver all end.", "quantifier": "all contexts, all boxes, all contractors, all behaviours of the external operators that only shrink boxes", "why_tests_cant": "a test that does not return within its time limit says nothing; termination is about unbounded executions", "anchors": ["dreal/contractor/contractor_fixpoint.cc: Prune", "dreal/contractor/contractor_worklist_fixpoint.cc: Prune", "dreal/solver/icp_seq.cc: CheckSat", "dreal/solver/icp_parallel.cc: Worker", "dreal/contractor/contractor_forall.h: Prune", "dreal/solver/theory_solver.cc: CheckSat", "dreal/solver/context_impl.cc: CheckSatCore"]}
{"id": "C68", "title": "Sets of variables are sets", "statement": "The class Variables behaves as a finite set under every sequence of its operations (insert, erase, +, -, intersect, on any number of objects); membership, inclusion, proper inclusion, equality and HaveIntersection answer exactly that; operator< is a strict total order.", "quantifier": "all sequences of operations on any number of sets of any size", "why_tests_cant": "the implementations walk over two ordered ranges at once, so they are right for all pairs of sets only if the order is kept by all operations", "anchors": ["third_party/com_github_robotlocomotion_drake/dreal/symbolic/symbolic_variables.cc: erase, IsSubsetOf, IsStrictSubsetOf, operator==, operator<, operator+=, operator-=, intersect", "third_party/com_github_robotlocomotion_drake/dreal/symbolic/symbolic_variables.h: insert, erase, include", "dreal/symbolic/symbolic.cc: HaveIntersection"]}
{"id": "C69", "title": "The program solves what it is asked to solve", "statement": "The program dreal solves exactly the file (or with --in the standard input) named on the command line, in the format given or that of the name's ending, with the options of the command line before those of the file; an answer unsat means that the commands in force have no solution, and an answer delta-sat with delta = d that d is the precision asked for and that the model satisfies the d-weakening of the assertions. If the input cannot be read the status is not 0.", "quantifier": "all command lines, file systems, standard inputs, files and readers", "why_tests_cant": "quantifies over all command lines and files, and the meaning of the printed line is a statement about all reals", "anchors": ["dreal/dreal_main.cc: MainProgram::Run, ValidateOptions, ExtractOptions", "dreal/smt2/run.cc: RunSmt2", "dreal/dr/run.cc: RunDr", "dreal/util/filesystem.cc: get_extension", "dreal/smt2/driver.cc: CheckSat, parse_file", "dreal/dr/driver.cc: Solve, parse_file"]}
{"id": "C70", "title": "A dr file is parsed according to the precedences of its grammar", "statement": "The parser of the dr format accepts a list of tokens iff it spells a problem in the unambiguous grammar in which expressions are sums of products of signed powers (power associates to the right and binds tighter than a sign, a sign binds tighter than products), and formulas are implications (to the right) of disjunctions of conjunctions of negations and comparisons; and then it builds that problem. No list of tokens spells two problems.", "quantifier": "all lists of tokens and all values of the bounds", "why_tests_cant": "quantifies over all lists of tokens; precedence errors show only for particular combinations of operators at particular depths", "anchors": ["dreal/dr/parser.yy: precedences and rules for script, formula, expr"]}
{"id": "C71", "title": "The text of a dr file is read as its tokens say", "statement": "The scanner of the dr format takes longest matches; tokens laid out with any blanks and comments, or without blanks where they can be told apart, are read back as these tokens, numbers with the value they are written with; every problem whose names are words and whose numbers are numerals can be written; what the program answers depends on the tokens only, and no part of a text is ignored.", "quantifier": "all texts, lists of tokens and problems", "why_tests_cant": "quantifies over all texts and layouts", "anchors": ["dreal/dr/scanner.ll: rules", "dreal/dr/driver.cc: parse_stream", "dreal/dr/parser.yy"]}
{"id": "C72", "title": "An SMT-LIB script is parsed as its grammar says", "statement": "The parser of SMT-LIB scripts reads a term or a command from a list of tokens iff they spell it in the grammar (nested application, let, forall, sorts, bounds), and then builds that term or command with its parts in order; no tokens spell two; a script is accepted iff it spells commands up to its end or the first exit; commands before an error are executed, none behind it; scripts in the syntax of the standard are not rejected.", "quantifier": "all lists of tokens, all values of literals and bounds", "why_tests_cant": "quantifies over all lists of tokens and nesting depths", "anchors": ["dreal/smt2/parser.yy: rules for script, command, term, terms, sorted_vars, var_binding", "dreal/smt2/driver.cc: parse_stream", "dreal/smt2/term.cc"]}
{"id": "C73", "title": "The text of an SMT-LIB script is read as its tokens say", "statement": "The scanner of SMT-LIB scripts takes longest matches; tokens laid out with any blanks and comments, or without blanks where they can be told apart, are read back as these tokens, decimal numbers with the value they are written with; how a text is read, and what the program answers for it, depends on its tokens only; no part of a text is ignored, and names that the standard distinguishes (and only these) are distinguished.", "quantifier": "all texts, lists of tokens and scripts", "why_tests_cant": "quantifies over all texts and layouts", "anchors": ["dreal/smt2/scanner.ll: rules", "dreal/smt2/driver.cc: parse_stream", "dreal/smt2/parser.yy"]}
{"id": "C74", "title": "Every answer the program prints for an SMT-LIB file is right, errors or not", "statement": "Each line printed for a file comes from one check-sat and depends only on the commands before it; it is printed also if a later command fails. If that line is unsat, the problem stated by the commands in force at that check has no solution, and behind an objective no solution at which the objective is best; if it is delta-sat with a model, the points of the model extend to solutions of the delta-weakened problem.", "quantifier": "all texts, command lines, solver configurations, all lines printed, all real assignments", "why_tests_cant": "quantifies over all files, also those that fail half-way, and over all real assignments", "anchors": ["dreal/smt2/parser.yy: rules for command", "dreal/smt2/driver.cc: CheckSat, Minimize, Maximize, parse_stream", "dreal/smt2/run.cc: RunSmt2", "dreal/dreal_main.cc: MainProgram::Run"]}
{"id": "C75", "title": "A contractor shared between threads prunes as the sequential one does", "statement": "With more than one job, the forward-backward and polytope contractors and those of quantified formulas are shared between the threads of a search and build, without a lock, one sequential contractor per thread at its first use. For every interleaving of calls of Prune there is no undefined behaviour (nothing is read out of range, no contractor is used after it was destroyed), every finished call gave what the sequential contractor for the same constraints gives, and a call finishes in a fixed number of steps of its thread whatever the others do.", "quantifier": "all interleavings of the memory accesses of any number of threads, all constraints and boxes over the variables of the contractor", "why_tests_cant": "quantifies over all schedules of the threads", "anchors": ["dreal/contractor/contractor_forall.h: ContractorForallMt", "dreal/contractor/contractor_ibex_fwdbwd_mt.cc: GetCtcOrCreate, Prune", "dreal/contractor/contractor_ibex_polytope_mt.cc: GetCtcOrCreate, Prune", "dreal/contractor/contractor.cc: make_contractor_ibex_fwdbwd, make_contractor_ibex_polytope"]}
{"id": "C76", "title": "The time reported for a phase is the time spent in it", "statement": "After any history of start, pause and resume a timer is running exactly if it should and shows the time that passed while it was on since it was last started. A program that measures a phase with guards reports exactly the time it spent in blocks with a guard, also if such blocks are nested; with statistics off it reports nothing. The times the sequential and the parallel search report for pruning, evaluation and branching are those they spent there.", "quantifier": "all histories of calls and all durations; all programs with guarded blocks", "why_tests_cant": "quantifies over all histories and nestings", "anchors": ["dreal/util/timer.cc: Timer, TimerGuard", "dreal/solver/icp_seq.cc: IcpSeq::CheckSat", "dreal/solver/icp_parallel.cc: Worker"]}
{"id": "C77", "title": "An exception of a worker reaches the caller of the parallel search", "statement": "If a worker of the parallel search throws (an interrupt by the user, a failing contractor or evaluator), then under every schedule the search ends, the exception reaches the caller of CheckSat, and no worker uses a variable of CheckSat afterwards. Without exceptions and interrupts the search is not changed.", "quantifier": "all numbers of workers, all schedules, exceptions in any worker at any step", "why_tests_cant": "quantifies over all schedules and all points at which a worker may throw", "anchors": ["dreal/solver/icp_parallel.cc: Worker, IcpParallel::CheckSat", "dreal/util/interrupt.cc: g_interrupted", "dreal/dreal_py.cc: sigint_handler"]}
{"id": "C78", "title": "No interrupt of a Python program is lost or seen twice", "statement": "After any Python program that calls the solver, the handler for SIGINT is the one the program installed last and the interrupt flag is clear. Every signal is either given to the handler the program had installed, or the call during which it arrives throws; a call throws only because of a signal that arrived during it.", "quantifier": "all programs of calls, signals and installed handlers; signals at any moment of a call", "why_tests_cant": "quantifies over all moments at which signals arrive", "anchors": ["dreal/util/signal_handler_guard.cc: SignalHandlerGuard", "dreal/util/interrupt.cc: g_interrupted", "dreal/dreal_py.cc: sigint_handler, CheckSat, CheckSatisfiability, Minimize", "dreal/solver/context_impl.cc: CheckSatCore", "dreal/solver/icp_seq.cc: CheckSat"]}
{"id": "C79", "title": "Every thread that uses the lock-free stack is attached to its library", "statement": "Whenever a thread pops a box from the lock-free stack of the parallel search it is attached to the library of the stack; a thread of a pool is detached when it ends, so that attached are exactly the threads that need it.", "quantifier": "all histories of searches, workers and ends of threads, for any number of threads and pools", "why_tests_cant": "quantifies over all histories of threads", "anchors": ["dreal/util/cds.h: CdsScopeGuard, CdsInit", "dreal/solver/icp_parallel.cc: Worker, IcpParallel::CheckSat"]}
{"id": "C80", "title": "A thread pool runs every task once", "statement": "A pool with at least one worker takes its tasks in the order in which they were given and runs each exactly once. No wake-up is lost: whatever the schedule, after a bounded number of steps nothing is going on any more, and then all tasks are finished; if the destructor has begun, all workers have returned, so that it ends, with all tasks finished. After that no task is accepted.", "quantifier": "all interleavings of requests, notifications and workers, for any number of workers and tasks", "why_tests_cant": "quantifies over all interleavings; lost wake-ups are rare in tests", "anchors": ["third_party/com_github_progschj_threadpool/ThreadPool/ThreadPool.h: ThreadPool, enqueue, ~ThreadPool"]}
