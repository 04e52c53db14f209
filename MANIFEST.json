{
 "claims": [
  {
   "property": "C01",
   "status": "proved",
   "theorems": [
    "Verif.Props.C01_scoped_vector_history",
    "Verif.Props.C01_pop_count"
   ],
   "note": "every history; unmatched pops rejected; returned count"
  },
  {
   "property": "C02",
   "status": "proved",
   "theorems": [
    "Verif.Props.C02_scoped_map_history"
   ],
   "note": "hash map as partial function; every history"
  },
  {
   "property": "C03",
   "status": "proved",
   "theorems": [
    "Verif.Props.C03_scoped_set_history"
   ],
   "note": "every history"
  },
  {
   "property": "C04",
   "status": "proved",
   "theorems": [
    "Verif.Props.C04_option_precedence"
   ],
   "note": "every assignment sequence"
  },
  {
   "property": "C05",
   "status": "partial",
   "theorems": [
    "Verif.Props.C05_bisect",
    "Verif.Props.C05_bisect_total_partial",
    "Verif.Props.C05_nonintegral_bounds"
   ],
   "note": "Every successful bisection is a partition; success is proved for integral bounds of integer variables. For a non-integral integer interval the code violates its own assertion (C05_nonintegral_bounds)."
  },
  {
   "property": "C06",
   "status": "proved",
   "theorems": [
    "Verif.Props.C06_find_max_diam",
    "Verif.Props.C06_max_diam",
    "Verif.Props.C06_branch"
   ],
   "note": ""
  },
  {
   "property": "C07",
   "status": "partial",
   "theorems": [
    "Verif.Props.C07_boxes_are_values_partial",
    "Verif.Props.C07_read_leaks_to_copies"
   ],
   "note": "Holds for all histories whose accesses by variable name variables of the box. The full claim is false: reading at an undeclared variable inserts it in the tables shared with the copies (C07_read_leaks_to_copies)."
  },
  {
   "property": "C08",
   "status": "partial",
   "theorems": [
    "Verif.Props.C08_access_declared_partial",
    "Verif.Props.C08_undeclared_read",
    "Verif.Props.C08_undeclared_write",
    "Verif.Props.C08_undeclared_then_added"
   ],
   "note": "Holds for variables of the box; for other variables the code reads and overwrites the first variable's interval (C08_undeclared_*)."
  },
  {
   "property": "C09",
   "status": "proved",
   "theorems": [
    "Verif.Props.C09_nnf"
   ],
   "note": "every formula, both modes"
  },
  {
   "property": "C10",
   "status": "proved",
   "theorems": [
    "Verif.Props.C10_naive_cnf",
    "Verif.Props.C10_is_cnf_throws_on_negated_forall"
   ],
   "note": "every formula, quantified ones included; the code's own test is_cnf throws on a negated quantified formula although it is a literal"
  },
  {
   "property": "C11",
   "status": "partial",
   "theorems": [
    "Verif.Props.C11_tseitin_equisat",
    "Verif.Props.C11_tseitin_total_partial",
    "Verif.Props.C11_unreachable_reached",
    "Verif.Props.C11_assertion_violated"
   ],
   "note": "equisatisfiability for every formula; totality and clause shape for quantifier-free formulas; false for some quantified formulas (two witnesses)"
  },
  {
   "property": "C12",
   "status": "proved",
   "theorems": [
    "Verif.Props.C12_abstraction_history",
    "Verif.Props.C12_recorded_forever",
    "Verif.Props.C12_convert_all"
   ],
   "note": "every history of requests with variables created in between"
  },
  {
   "property": "C13",
   "status": "proved",
   "theorems": [
    "Verif.Props.C13_ite_elimination"
   ],
   "note": "every formula, nested, guarded and quantified if-then-else terms"
  },
  {
   "property": "C14",
   "status": "partial",
   "theorems": [
    "Verif.Props.C14_construction_meaning_partial",
    "Verif.Props.C14_connectives"
   ],
   "note": "relations fold constants with exact arithmetic in the model"
  },
  {
   "property": "C15",
   "status": "partial",
   "theorems": [
    "Verif.Props.C15_formula_partial",
    "Verif.Props.C15_expression_partial",
    "Verif.Props.C15_capture"
   ],
   "note": "Proved for all terms and substitutions where no quantifier captures a variable of a substitute. Missing: capture, where the code is wrong (C15_capture); uninterpreted functions are not modelled; the simplification of sums and products on construction is separate (C47, C48)."
  },
  {
   "property": "C16",
   "status": "partial",
   "theorems": [
    "Verif.Props.C16_strict_order",
    "Verif.Props.C16_total_partial",
    "Verif.Props.C16_set_partial",
    "Verif.Props.literals_one",
    "Verif.Props.C16_real_constant"
   ],
   "note": "The strict weak order is proved for all expressions and formulas. Unordered means equal, and sets drop nothing, is proved when no two different real constants share a representative; it is false otherwise (C16_real_constant), with constants the parser makes from two literals (literals_one)."
  },
  {
   "property": "C17",
   "status": "partial",
   "theorems": [
    "Verif.Props.C17_strengthen_partial",
    "Verif.Props.C17_weaken_partial",
    "Verif.Props.C17_close_partial",
    "Verif.Props.C17_ite",
    "Verif.Props.C17_forall"
   ],
   "note": "Proved for formulas without quantifiers and if-then-else terms (any monotone rounding that fixes the constants), with a bound on how far the results are from the formula. Fails with if-then-else terms (C17_ite); the code refuses quantified formulas (C17_forall)."
  },
  {
   "property": "C18",
   "status": "proved",
   "theorems": [
    "Verif.Props.C18_verdicts",
    "Verif.Props.C18_weakening_sane",
    "Verif.Props.C18_verdict_total"
   ],
   "note": "points at which the relation is defined; IBEX operations are parameters assumed to enclose"
  },
  {
   "property": "C19",
   "status": "proved",
   "theorems": [
    "Verif.Props.C19_eval_encloses",
    "Verif.Props.C19_eval_total",
    "Verif.Props.C19_undeclared_variable"
   ],
   "note": "points at which the expression is defined; variables of the box (C19_undeclared_variable shows what happens otherwise)"
  },
  {
   "property": "C20",
   "status": "partial",
   "theorems": [
    "Verif.Props.C20_nonstrict_exact",
    "Verif.Props.C20_strict_exact_partial",
    "Verif.Props.C20_no_loss_partial",
    "Verif.Props.C20_strict_loses_reals",
    "Verif.Props.C20_strict_upper_negative",
    "Verif.Props.C20_boolean_throws"
   ],
   "note": "Non-strict bounds are absorbed exactly. Strict bounds are exact only when no real lies between the bound and its double neighbour; otherwise reals are lost (C20_strict_loses_reals), a negative strict upper bound is moved the wrong way (C20_strict_upper_negative) and a strict bound on a Boolean variable throws (C20_boolean_throws)."
  },
  {
   "property": "C21",
   "status": "proved",
   "theorems": [
    "Verif.Props.C21_prune_sound",
    "Verif.Props.C21_sub_points",
    "Verif.Props.C21_worklist_unread",
    "Verif.Props.C21_worklist_read",
    "Verif.Props.C21_worklist_fixpoint"
   ],
   "note": "for every contractor tree; atomic IBEX operators and the forall contractor are parameters assumed to be contracting and sound (IbexSound, ForallSound, met by the concrete demoIbex); points at which a partial function is applied outside its domain are excluded. C21_worklist_fixpoint is for calls without branching that end with a non-empty box and do not meet the termination condition after the first pass; that such calls end is not part of it (see C67)"
  },
  {
   "property": "C22",
   "status": "proved",
   "theorems": [
    "Verif.Props.C22_generated_prune_sound"
   ],
   "note": "same assumptions as C21"
  },
  {
   "property": "C23",
   "status": "proved",
   "theorems": [
    "Verif.Props.C23_unsat_sound",
    "Verif.Props.C23_default_brancher"
   ],
   "note": "for every brancher that splits boxes (the default one does), contractor tree, stack order and length; IBEX assumptions as in C21; points at which the constraints are defined"
  },
  {
   "property": "C24",
   "status": "partial",
   "theorems": [
    "Verif.Props.C24_delta_sat_partial",
    "Verif.Props.C24_default_gives_up",
    "Verif.Props.C24_stuck_box",
    "Verif.Props.C24_no_variable"
   ],
   "note": "Holds unless the brancher gives up on an unsplittable box, and for relations with a variable; wrong in the excluded cases (C24_stuck_box, C24_no_variable). Bounds on a variable are left to the bound filter; quantified constraints to their evaluator."
  },
  {
   "property": "C25",
   "status": "proved",
   "theorems": [
    "Verif.Props.C25_unsat_sound",
    "Verif.Props.C25_sat_accepted",
    "Verif.Props.C25_no_early_stop"
   ],
   "note": "every number of workers and every schedule; sequentially consistent memory and a linearizable stack"
  },
  {
   "property": "C26",
   "status": "partial",
   "theorems": [
    "Verif.Props.C26_conflict_partial",
    "Verif.Props.C26_cache",
    "Verif.Props.C26_strict_gap",
    "Verif.Props.C26_stale_cache"
   ],
   "note": "Sequential and parallel search, every configuration and schedule. Proved for points at which the constraints are defined, outside the gaps next to literals of strict bounds, and for caches filled under the same declarations; wrong outside (C26_strict_gap, C26_stale_cache). Assumes the IBEX operators and the forall contractor are sound and local."
  },
  {
   "property": "C27",
   "status": "partial",
   "theorems": [
    "Verif.Props.C27_unsat_partial",
    "Verif.Props.C27_quantified_partial"
   ],
   "note": "For all histories of calls and all runs of the SAT/theory loop, under the recorded assumptions on the interval library and the SAT solver: unsat means there is no solution at which all terms have values and which keeps off the gaps next to literals of strict bounds. Quantified assertions are included, with the forall contractors and evaluators of the code (C27_quantified_partial). Missing: Boolean variables, conditionals and further quantifiers under a quantifier; new variables, conditionals and pops after a check with a quantified assertion; intervals made larger after an assertion, variables declared again after their scope was popped (the last two refuted)."
  },
  {
   "property": "C28",
   "status": "partial",
   "theorems": [
    "Verif.Props.C28_box_partial",
    "Verif.Props.C28_delta_sat_partial",
    "Verif.Props.C28_conditional_box_partial",
    "Verif.Props.C28_conditional_model_partial",
    "Verif.Props.C28_hidden_partial",
    "Verif.Props.C28_conditional_exact_fails",
    "Verif.Props.C28_stuck_box",
    "Verif.Props.C28_boolean_domain",
    "Verif.Props.C28_empty_component",
    "Verif.Props.C28_quantified_fails"
   ],
   "note": "For all histories of calls with plain assertions and all runs of the SAT/theory loop: every point of the box found is in the declared intervals and satisfies the delta-weakening of every assertion whose terms have values, if the search did not end with a box it could not split; the same for the reported model with continuous and Boolean variables. With if-then-else in assertions (C28_conditional_box_partial, C28_conditional_model_partial): a conditional takes a branch whose condition holds up to delta and its value is off by at most delta; with exact values of conditionals the claim is wrong (C28_conditional_exact_fails). With variables the model does not report (C28_hidden_partial): every point of the model extends to such a point. Missing: quantifiers, intervals set after an assertion or for Boolean variables. Refuted without the provisos (C28_stuck_box, C28_boolean_domain, C28_empty_component), and for quantified assertions (C28_quantified_fails: the formula fails by more than 98 with precision 1)."
  },
  {
   "property": "C29",
   "status": "partial",
   "theorems": [
    "Verif.Props.C27_unsat_partial",
    "Verif.Props.C29_stale_unsat"
   ],
   "note": "The theorem ranges over histories with earlier checks, learned clauses and cached contractors; intervals may be changed freely until something is asserted and made smaller afterwards. C29_stale_unsat: with a larger interval after an unsat answer the old answer persists."
  },
  {
   "property": "C30",
   "status": "partial",
   "theorems": [
    "Verif.Props.C30_pop_restores_partial",
    "Verif.Props.C30_stale_contractor"
   ],
   "note": "The assertions, boxes, clauses and names are restored for every balanced sequence after every history; later answers can differ through the contractor cache (C30_stale_contractor)."
  },
  {
   "property": "C31",
   "status": "partial",
   "theorems": [
    "Verif.Props.C31_model_variables_partial",
    "Verif.Props.C31_leak"
   ],
   "note": "Exactly the declared model variables in scope, after every history, if variables declared in closed scopes are declared again; otherwise auxiliary variables can leak (C31_leak)."
  },
  {
   "property": "C32",
   "status": "partial",
   "theorems": [
    "Verif.Props.C32_width",
    "Verif.Props.C32_domain_partial",
    "Verif.Props.C32_integer_outside",
    "Verif.Props.C32_binary_outside",
    "Verif.Props.C32_large_delta"
   ],
   "note": "Width for all boxes; domains and types for continuous variables and for integral bounds with delta < 1; wrong otherwise."
  },
  {
   "property": "C33",
   "status": "partial",
   "theorems": [
    "Verif.Props.C33_kept_partial",
    "Verif.Props.C33_conditional_partial",
    "Verif.Props.C33_forgotten_bound",
    "Verif.Props.C33_forgotten_false"
   ],
   "note": "For all later calls that do not close the scope, except setting intervals, which may drop the assertion (C33_forgotten_bound, C33_forgotten_false); plain assertions, and assertions with if-then-else terms (C33_conditional_partial)."
  },
  {
   "property": "C34",
   "status": "partial",
   "theorems": [
    "Verif.Props.C34_valid_partial",
    "Verif.Props.C34_never_unsat",
    "Verif.Props.C34_environment",
    "Verif.Props.C34_stale",
    "Verif.Props.C34_alias",
    "Verif.Props.C34_range"
   ],
   "note": "Proved for evaluators that are given smaller and smaller boxes over the free variables: valid implies that the formula holds up to the strengthening for all regular values of the quantified variables (integers: within 32 bits). Unsat is never reported, which discharges the assumption of C23 to C28 on these evaluators. Wrong in general: for boxes outside earlier ones (C34_stale), for boxes with other variables (C34_alias), for larger integers (C34_range)."
  },
  {
   "property": "C35",
   "status": "partial",
   "theorems": [
    "Verif.Props.C35_prune_partial",
    "Verif.Props.C35_context_partial",
    "Verif.Props.C35_environment",
    "Verif.Props.C35_solver_partial",
    "Verif.Props.C35_integer"
   ],
   "note": "Proved for every search for counterexamples, right or wrong, whose counterexamples are non-empty boxes over the right variables with midpoints of the right type; the code's nested context with any history of searches is such a search when the quantified variables are real (C35_context_partial), so the assumptions on the forall contractor in C21 to C28 are met by the code (C35_solver_partial). For quantified integer variables the code is wrong already at the default precision (C35_integer). The point found by the refiner is left arbitrary."
  },
  {
   "property": "C36",
   "status": "proved",
   "theorems": [
    "Verif.Props.C36_pareto",
    "Verif.Props.C36_minimum",
    "Verif.Props.C36_maximum",
    "Verif.Props.C36_stops",
    "Verif.Props.C36_boolean"
   ],
   "note": "All constraint sets and objectives without Boolean variables among the related variables, all valuations; one objective (C36_minimum), several (C36_pareto). The constraints are those the context holds (box and stack; how assertions get there is C20). With related Boolean variables Minimize throws and installs nothing (C36_boolean)."
  },
  {
   "property": "C37",
   "status": "partial",
   "theorems": [
    "Verif.Props.C37_reported_partial",
    "Verif.Props.C37_unnamed_partial",
    "Verif.Props.C37_rejected",
    "Verif.Props.C37_overridden",
    "Verif.Props.C37_alias",
    "Verif.Props.C37_kind"
   ],
   "note": "Proved for the names the solver recognises when the last setting was accepted, is not overridden by the command line and no alias follows; names it does not recognise are reported as set. The code is wrong otherwise: rejected values are still reported (C37_rejected), command-line values hide the reported ones (C37_overridden), precision under its two spellings (C37_alias), values of the wrong kind are stored and ignored (C37_kind)."
  },
  {
   "property": "C38",
   "status": "partial",
   "theorems": [
    "Verif.Props.C38_declared_partial",
    "Verif.Props.C38_pop",
    "Verif.Props.C38_shadow"
   ],
   "note": "All scripts, with let, forall and functions, and all terms: every name used was declared or defined by an earlier command, and names bound by let, forall and as parameters are not usable outside. Missing: names declared in a scope closed by pop remain usable (C38_pop), and a name given again in a scope keeps its inner meaning after the pop (C38_shadow)."
  },
  {
   "property": "C39",
   "status": "partial",
   "theorems": [
    "Verif.Props.C39_script_partial",
    "Verif.Props.C39_scopes_partial",
    "Verif.Props.C39_let_forall",
    "Verif.Props.C39_let_function"
   ],
   "note": "The problem posed to the context is the problem stated by the script, with let anywhere but below quantifiers and in bodies of functions with parameters, where the code is wrong (C39_let_forall, C39_let_function). With push and pop it is what the commands in force state (C39_scopes_partial), if names are used only where they are in force and are not given again in inner scopes (C38_pop, C38_shadow)."
  },
  {
   "property": "C40",
   "status": "partial",
   "theorems": [
    "Verif.Props.C40_forall_partial",
    "Verif.Props.C39_script_partial",
    "Verif.Props.C39_scopes_partial",
    "Verif.Props.C40_leak",
    "Verif.Props.C40_empty"
   ],
   "note": "Proved when all variables with bounds occur in the body, and for one variable with non-empty bounds. The code is wrong otherwise (C40_leak, C40_empty)."
  },
  {
   "property": "C41",
   "status": "partial",
   "theorems": [
    "Verif.Props.C39_script_partial",
    "Verif.Props.C39_scopes_partial",
    "Verif.Props.C41_count",
    "Verif.Props.C41_sorts",
    "Verif.Props.C39_let_function"
   ],
   "note": "Calls mean the body with the parameters bound to the values of the arguments, for all scripts as in C39, nested calls included; wrong numbers and sorts of arguments are errors. Missing: bodies with let (C39_let_function)."
  },
  {
   "property": "C42",
   "status": "proved",
   "theorems": [
    "Verif.Props.C42_eliminate",
    "Verif.Props.C42_gone"
   ],
   "note": "All well-sorted formulas (formulas that can be built), any list of variables."
  },
  {
   "property": "C43",
   "status": "proved",
   "theorems": [
    "Verif.Props.C43_enclosed",
    "Verif.Props.C43_accepted",
    "Verif.Props.C43_total",
    "Verif.Props.C43_literal",
    "Verif.Props.C43_plus"
   ],
   "note": "All decimal literals with optional minus sign; rounding is IEEE binary64, range errors of the C library are a parameter. C43_plus: literals with a plus sign, which the scanner accepts, are rejected by the conversion, so no interval is produced."
  },
  {
   "property": "C44",
   "status": "proved",
   "theorems": [
    "Verif.Props.C44_int",
    "Verif.Props.C44_double",
    "Verif.Props.C44_literal",
    "Verif.Props.C44_is_integer"
   ],
   "note": "All integers (and so all 64-bit ones), any rounding that keeps doubles."
  },
  {
   "property": "C45",
   "status": "partial",
   "theorems": [
    "Verif.Props.C45_one_pool_partial",
    "Verif.Props.C45_out_of_range",
    "Verif.Props.C45_shared"
   ],
   "note": "Proved for all histories with one pool alive at a time. With two pools alive the code gives out identities at or above the number of jobs (C45_out_of_range) and the same identity to two workers (C45_shared)."
  },
  {
   "property": "C46",
   "status": "partial",
   "theorems": [
    "Verif.Props.C46_positive_partial",
    "Verif.Props.C46_solutions_partial",
    "Verif.Props.C46_negated",
    "Verif.Props.C46_negated_example"
   ],
   "note": "Proved for conjunctions of relations without negation (strict relations become their closures, which the optimiser cannot tell apart). The code drops the negation of a negated relation (C46_negated, C46_negated_example), so the full claim is false."
  },
  {
   "property": "C47",
   "status": "partial",
   "theorems": [
    "Verif.Props.C47_product_partial",
    "Verif.Props.C47_built_partial",
    "Verif.Props.C47_sqrt",
    "Verif.Props.C47_root",
    "Verif.Props.C47_square_root",
    "Verif.Props.C47_ub",
    "Verif.Props.C47_real",
    "Verif.Props.C48_alias"
   ],
   "note": "Values of products, quotients and powers of expressions in normal form, and of everything built from variables and constants when exponents are integers or bases are leaves; exact arithmetic on constants, real constants with different non-integer representatives, calls that return. False in general: (x^2)^0.5*y becomes x*y (C47_root, C47_square_root), integer representatives of real constants (C47_real), pow(pow(x,y),2) is undefined behaviour (C47_ub), e *= e (C48_alias)."
  },
  {
   "property": "C48",
   "status": "partial",
   "theorems": [
    "Verif.Props.C48_sum_partial",
    "Verif.Props.C48_linear_partial",
    "Verif.Props.C48_real",
    "Verif.Props.C48_rounding",
    "Verif.Props.C48_alias"
   ],
   "note": "For everything built by adding, subtracting and scaling from variables and constants (C48_linear_partial, including that the calls return), and for sums of any expressions in normal form (C48_sum_partial), with exact arithmetic on constants. False with rounding (C48_rounding), real constants with the same representative (C48_real), and e += e (C48_alias)."
  },
  {
   "property": "C49",
   "status": "proved",
   "theorems": [
    "Verif.Props.C49_closure",
    "Verif.Props.C49_any_fuel"
   ],
   "note": "least closure of the witnesses under sharing variables; every list of used constraints"
  },
  {
   "property": "C50",
   "status": "proved",
   "theorems": [
    "Verif.Props.C50_flatten_seq",
    "Verif.Props.C50_flatten_fixpoint",
    "Verif.Props.C50_flatten_empty"
   ],
   "note": "literal equality of the resulting status on non-empty boxes; on an already empty box both results are empty but the recorded explanation may differ (example beside it)"
  },
  {
   "property": "C51",
   "status": "partial",
   "theorems": [
    "Verif.Props.C51_constraint_partial",
    "Verif.Props.C51_none",
    "Verif.Props.C51_expression_partial",
    "Verif.Props.C51_rounding",
    "Verif.Props.C51_real"
   ],
   "note": "Proved for relations between normal-form expressions, exact arithmetic on constants, real constants with different non-integer representatives, and points where bases of powers with exponents that are not integer constants are positive. IBEX is assumed to compute the functions it is given. False with rounding of the difference of the two sides (C51_rounding) and with literals that share a representative (C51_real)."
  },
  {
   "property": "C52",
   "status": "partial",
   "theorems": [
    "Verif.Props.C52_derivative_partial",
    "Verif.Props.C52_absent_partial",
    "Verif.Props.C52_refused",
    "Verif.Props.C52_zero"
   ],
   "note": "Proved for all normal-form expressions at points where all parts are differentiable and no base of a product is 0, with exact arithmetic on constants and real constants with different non-integer representatives. False where a factor is 0: the derivative of 2*atan(x) has no value at 0 (C52_zero)."
  },
  {
   "property": "C53",
   "status": "partial",
   "theorems": [
    "Verif.Props.C53_unsat_partial",
    "Verif.Props.C53_variables",
    "Verif.Props.C53_delta_sat_partial",
    "Verif.Props.C53_conditional_partial"
   ],
   "note": "The variables of the returned box are proved for all formulas whose variables have different ids. The unsat and delta-sat parts inherit the restrictions of C27 and C28: solutions at which terms have values and off the gaps next to strict bounds; plain formulas over continuous and Boolean variables, and a search that did not end with a box it could not split; formulas with if-then-else by C53_conditional_partial."
  },
  {
   "property": "C54",
   "status": "partial",
   "theorems": [
    "Verif.Props.C54_unsat_partial",
    "Verif.Props.C54_no_solution_partial",
    "Verif.Props.C54_model_partial",
    "Verif.Props.C54_delta_sat_partial",
    "Verif.Props.C54_conditional_partial",
    "Verif.Props.C54_prefix",
    "Verif.Props.C54_large_integer"
   ],
   "note": "Composition of C39 (front end), C27, C28 and C31 (context), with one counter of variable ids shared by both. Proved for scripts with the terms of C39_script_partial, with push and pop as in C39_scopes_partial (the answers are about the commands in force); unsat for ordinary points (terms have values, off the gaps next to strict bounds, integers within int), without checks before the last one if there are quantifiers; delta-sat for plain scripts over reals and Booleans, and with conditionals, let, functions and closed scopes by C54_conditional_partial (every point of the model extends to the variables not reported). False for integers beyond 2147483647 (C54_large_integer)."
  },
  {
   "property": "C55",
   "status": "partial",
   "theorems": [
    "Verif.Props.C55_unsat_partial",
    "Verif.Props.C55_api_unsat_partial"
   ],
   "note": "Proved for histories without scopes whose assertions and objectives have no quantifiers and conditionals, have values everywhere, and whose bounds have literals that are doubles; optima off the gaps next to the literals of strict bounds. Delta-sat answers with objectives are not covered (C28 is without quantifiers)."
  },
  {
   "property": "C56",
   "status": "partial",
   "theorems": [
    "Verif.Props.C56_meaning",
    "Verif.Props.C56_declared",
    "Verif.Props.C56_unsat_partial",
    "Verif.Props.C56_unsat_cost_partial",
    "Verif.Props.C56_model_partial",
    "Verif.Props.C56_delta_sat_partial",
    "Verif.Props.C56_redeclared"
   ],
   "note": "Translation (C56_meaning) and declaredness (C56_declared) in full. Unsat for points at which the terms have values and off the gaps next to strict bounds; with costs for distinct names, terms with values everywhere and bounds within the limits of C20. The model and delta-sat for problems without costs; delta-sat with the proviso of C28. False for names declared twice (C56_redeclared)."
  },
  {
   "property": "C57",
   "status": "partial",
   "theorems": [
    "Verif.Props.C57_expression_partial",
    "Verif.Props.C57_formula_partial",
    "Verif.Props.C57_real_constant",
    "Verif.Props.C57_large_integer",
    "Verif.Props.C57_digits"
   ],
   "note": "Proved on the level of words (numbers are words with a value) for all normal forms without real constants, uninterpreted functions and quantifiers whose numbers 19 digits give exactly and whose integers of at most 19 digits are at most 2^53, and names that are no reserved words. Otherwise false: real constants with different values print alike, integers beyond 2^53 are rejected when read, and most doubles are read back as another number (C57_digits: 0.1)."
  },
  {
   "property": "C58",
   "status": "partial",
   "theorems": [
    "Verif.Props.C58_numbers_partial",
    "Verif.Props.C58_truth_partial",
    "Verif.Props.C58_let",
    "Verif.Props.C58_stale",
    "Verif.Props.C58_no_value",
    "Verif.Props.C58_throws",
    "Verif.Props.C58_undetermined"
   ],
   "note": "For get-value right after the check, terms without let and names in scope: every number printed encloses the value at every point of the model at which the term is defined; truth values are right at some point of the model (all printed ones at once). Otherwise false: let terms and names declared after the check get the value of another variable; unbounded terms, no model, if-then-else and compound formulas give no value; undetermined Booleans."
  },
  {
   "property": "C59",
   "status": "partial",
   "theorems": [
    "Verif.Props.C59_refined",
    "Verif.Props.C59_refiner",
    "Verif.Props.C59_prune_partial",
    "Verif.Props.C59_objective",
    "Verif.Props.C59_solutions_partial",
    "Verif.Props.C59_exact_partial",
    "Verif.Props.C59_alias",
    "Verif.Props.C59_equation"
   ],
   "note": "Harmlessness in full for finite results of the optimiser (C59_refined, C59_refiner; pruning with the provisos of C35). The objective in full. Feasibility for queries whose bounds are on quantified real variables: solutions are feasible (off the gaps next to strict bounds), and exactly they without strict relations. False for bounds on other variables (C59_alias); queries with equations in the formula fail an assertion (C59_equation)."
  },
  {
   "property": "C60",
   "status": "partial",
   "theorems": [
    "Verif.Props.C60_unsat_partial",
    "Verif.Props.C60_formula",
    "Verif.Props.C60_late"
   ],
   "note": "Composition of C39 (front end) and C55 (context) over the SMT-LIB meaning of script and objective. Proved for scripts without scopes whose assertions and objective have no quantifiers and conditionals, have values everywhere, whose bounds have literals that are doubles and are declared before assertions; optima off the gaps next to strict bounds. False if something is asserted after the objective (C60_late)."
  },
  {
   "property": "C61",
   "status": "partial",
   "theorems": [
    "Verif.Props.C61_value_partial",
    "Verif.Props.C61_truth_partial",
    "Verif.Props.C61_returns_partial",
    "Verif.Props.C61_decides_partial",
    "Verif.Props.C61_defined_partial",
    "Verif.Props.C61_unchecked",
    "Verif.Props.C61_large_power"
   ],
   "note": "Exact arithmetic (operations of the machine give the exact value where there is one, anything elsewhere), environments that are not empty, conditions about variables with entries. What is returned is the value if there is one; with entries for all variables evaluation returns. That it throws where there is no value is proved for steady expressions (natural exponents, no log, tan, atan2, conditions) and false for products with fractional exponents (C61_unchecked); negative numbers to powers beyond int are refused (C61_large_power)."
  },
  {
   "property": "C62",
   "status": "partial",
   "theorems": [
    "Verif.Props.C62_cache",
    "Verif.Props.C62_run",
    "Verif.Props.C62_value_partial",
    "Verif.Props.C62_gradient_partial",
    "Verif.Props.C62_nan"
   ],
   "note": "The cache in full, over all histories of calls, exceptions and new runs. Values and gradients with exact arithmetic at points where all parts are differentiable and no factor is 0; false at zeros of factors (C62_nan: the gradient of 2*atan(x) at 0 is no number)."
  },
  {
   "property": "C63",
   "status": "proved",
   "theorems": [
    "Verif.Props.C63_kinks",
    "Verif.Props.C63_supported",
    "Verif.Props.C63_formula",
    "Verif.Props.C63_gradient_partial",
    "Verif.Props.C63_sqrt"
   ],
   "note": "Exactness for expressions and formulas in full. The composition with C62 has the provisos of C62; C63_sqrt shows that an expression said to be differentiable need not be at the border of its domain, where the callback throws."
  },
  {
   "property": "C64",
   "status": "partial",
   "theorems": [
    "Verif.Props.C64_value_partial",
    "Verif.Props.C64_whole_partial",
    "Verif.Props.C64_test_partial",
    "Verif.Props.C64_root",
    "Verif.Props.C64_again",
    "Verif.Props.C64_incomplete",
    "Verif.Props.C64_identity_partial",
    "Verif.Props.C64_quotient"
   ],
   "note": "Proved over exact arithmetic for all normal forms with integer exponents, and generally unless the base of a non-integer power expands to an integer power; false then (C64_root). Expanding is not idempotent (C64_again), so debug assertions of the code can fail. The documented test is sound (C64_test_partial); it is complete for polynomials without powers of products and without quotients (C64_identity_partial), not for others (C64_incomplete, C64_quotient)."
  },
  {
   "property": "C65",
   "status": "partial",
   "theorems": [
    "Verif.Props.C65_value_partial",
    "Verif.Props.C65_whole_partial",
    "Verif.Props.C65_partial_evaluation_partial",
    "Verif.Props.C65_root",
    "Verif.Props.C65_uf"
   ],
   "note": "Proved over exact arithmetic for all normal forms without uninterpreted functions with integer exponents, and generally unless the base of a non-integer power becomes an integer power; false then (C65_root) and for uninterpreted functions (C65_uf). Substitution in conditions is a parameter."
  },
  {
   "property": "C66",
   "status": "proved",
   "theorems": [
    "Verif.Props.C66_variables",
    "Verif.Props.C66_free_variables",
    "Verif.Props.C66_depends",
    "Verif.Props.C66_depends_formula",
    "Verif.Props.C66_include_ite",
    "Verif.Props.C66_include_ite_formula",
    "Verif.Props.C66_polynomial",
    "Verif.Props.C66_large"
   ],
   "note": "All expressions and formulas; for is_polynomial those that do not divide by the constant 0, which the code refuses to build. C66_large: polynomials with exponents beyond int are not recognised."
  },
  {
   "property": "C67",
   "status": "partial",
   "theorems": [
    "Verif.Props.C67_brancher",
    "Verif.Props.C67_search_partial",
    "Verif.Props.C67_parallel_partial",
    "Verif.Props.C67_fair_partial",
    "Verif.Props.C67_theory_partial",
    "Verif.Props.C67_check_partial",
    "Verif.Props.C67_forall_partial",
    "Verif.Props.C67_counterexample_partial",
    "Verif.Props.C67_contractor_partial",
    "Verif.Props.C67_evaluator_partial",
    "Verif.Props.C67_quantified_partial",
    "Verif.Props.C67_nested_partial",
    "Verif.Props.C67_minimum_partial",
    "Verif.Props.C67_worklist_hangs"
   ],
   "note": "Proved for integer variables with intervals in the range of int, for the sequential search and for the parallel search under every schedule in which each worker has enough turns (C67_fair_partial: again and again); the bounds come from a finite set (the doubles) which the external operators do not leave. The loop of the contractor of a quantified constraint ends, and so does its search for counterexamples in the nested context, in every state that earlier searches leave (C67_contractor_partial; the refinement of counterexamples by NLopt is assumed to end); likewise the evaluation of a quantified constraint, after any earlier evaluations (C67_evaluator_partial). A check with quantified assertions ends if pruning and evaluation of quantified literals end on well-formed non-empty boxes with bounds on the grid over the variables of the check (C67_quantified_partial). C67_nested_partial puts these together: a check that prunes and evaluates quantified literals with nested contexts, as the code does, ends, if the nested contexts meet the conditions of a check without quantifiers. Missing: integer variables under the quantifier, and strict bounds of integer variables next to quantified literals. Minimize ends, and so does the check after it (C67_minimum_partial). With a work list and an integer bound beyond int the loop need not end (C67_worklist_hangs)."
  },
  {
   "property": "C68",
   "status": "partial",
   "theorems": [
    "Verif.Props.C68_operations_partial",
    "Verif.Props.C68_self",
    "Verif.Props.C68_erased",
    "Verif.Props.C68_questions",
    "Verif.Props.C68_order",
    "Verif.Props.C68_explanation"
   ],
   "note": "All sequences of operations, unless an object is inserted into itself or erased from itself, which is undefined behaviour (C68_self; reachable from Python). The algorithms of the standard library are modelled as specified."
  },
  {
   "property": "C69",
   "status": "partial",
   "theorems": [
    "Verif.Props.C69_status",
    "Verif.Props.C69_refused",
    "Verif.Props.C69_asked",
    "Verif.Props.C69_printed",
    "Verif.Props.C69_stdin",
    "Verif.Props.C69_options",
    "Verif.Props.C69_script",
    "Verif.Props.C69_unsat_partial",
    "Verif.Props.C69_delta_sat_partial",
    "Verif.Props.C69_silent",
    "Verif.Props.C69_in_file"
   ],
   "note": "All command lines, files and readers: which text is solved, with which options, wherever the file sets them. The meaning of unsat and delta-sat is proved for files that set their options first, within the limits of C54. False: input with errors leaves status 0 and nothing printed (C69_silent); --in with another argument does not read the standard input (C69_in_file). How texts are read is a parameter."
  },
  {
   "property": "C70",
   "status": "proved",
   "theorems": [
    "Verif.Props.C70_expr",
    "Verif.Props.C70_formula",
    "Verif.Props.C70_problem",
    "Verif.Props.C70_unambiguous",
    "Verif.Props.C70_nothing_else"
   ],
   "note": "All lists of tokens. The tables bison generates are not in the source: the model reduces and shifts by the rules, the declared precedences and the way bison documents to resolve conflicts."
  },
  {
   "property": "C71",
   "status": "partial",
   "theorems": [
    "Verif.Props.C71_longest",
    "Verif.Props.C71_layout",
    "Verif.Props.C71_problem",
    "Verif.Props.C71_writable",
    "Verif.Props.C71_number",
    "Verif.Props.C71_open_comment",
    "Verif.Props.C71_cut",
    "Verif.Props.C71_program",
    "Verif.Props.C71_unsat_partial",
    "Verif.Props.C71_delta_sat_partial"
   ],
   "note": "All texts that are laid out as described, and longest matches for all texts; C71_unsat_partial and C71_delta_sat_partial go from the text of a file without costs to the meaning of the answer, within the limits of C56. False: a comment on the last line without an end of line is an error (C71_open_comment), and what follows a character that is not ASCII is ignored (C71_cut). That character codes below one are taken for the end of the input is how bison's parsers translate tokens. The scanner flex generates is modelled by its rules."
  },
  {
   "property": "C72",
   "status": "partial",
   "theorems": [
    "Verif.Props.C72_term",
    "Verif.Props.C72_command",
    "Verif.Props.C72_script",
    "Verif.Props.C72_unambiguous",
    "Verif.Props.C72_unambiguous_command",
    "Verif.Props.C72_before",
    "Verif.Props.C72_error",
    "Verif.Props.C72_standard_fails"
   ],
   "note": "All lists of tokens. False only in that standard commands and terms outside the grammar (integers as values of options, reset, echo, chained comparisons) are syntax errors, from which on the file is ignored (C72_standard_fails). The values of decimal literals and bounds are parameters; an exception while reading counts as an error of syntax."
  },
  {
   "property": "C73",
   "status": "partial",
   "theorems": [
    "Verif.Props.C73_longest",
    "Verif.Props.C73_layout",
    "Verif.Props.C73_characters",
    "Verif.Props.C73_integer",
    "Verif.Props.C73_script",
    "Verif.Props.C73_same",
    "Verif.Props.C73_writable",
    "Verif.Props.C73_program",
    "Verif.Props.C73_decimal",
    "Verif.Props.C73_unsat_partial",
    "Verif.Props.C73_delta_sat_partial",
    "Verif.Props.C73_open_comment",
    "Verif.Props.C73_cut",
    "Verif.Props.C73_bars_fails",
    "Verif.Props.C73_backslash_fails"
   ],
   "note": "All texts that are laid out as described, and longest matches for all texts; C73_unsat_partial and C73_delta_sat_partial go from the text of a file to the meaning of the answer, within the limits of C69 and for scripts without objectives (for these see C74). False: what follows a character that is not ASCII is ignored (C73_cut), x and |x| are different names (C73_bars_fails), and of a quoted symbol with a backslash only the part behind it is kept (C73_backslash_fails)."
  },
  {
   "property": "C74",
   "status": "partial",
   "theorems": [
    "Verif.Props.C74_line",
    "Verif.Props.C74_agrees",
    "Verif.Props.C74_program",
    "Verif.Props.C74_unsat_partial",
    "Verif.Props.C74_delta_sat_partial",
    "Verif.Props.C74_optimum_partial",
    "Verif.Props.C74_options_partial",
    "Verif.Props.C74_delta_options_partial",
    "Verif.Props.C74_positive",
    "Verif.Props.C39_file_partial"
   ],
   "note": "C74_line for all texts, also those that fail half-way or have objectives. The meaning of the lines within the limits of C69 and C60: for unsat and delta-sat options may be set anywhere (C74_options_partial, C74_delta_options_partial), for optimum before the other commands. One objective directly before the check; several checks and errors behind them are covered."
  },
  {
   "property": "C75",
   "status": "partial",
   "theorems": [
    "Verif.Props.C75_threads_partial",
    "Verif.Props.C75_waits_for_none",
    "Verif.Props.C75_own_partial",
    "Verif.Props.C75_sound_partial",
    "Verif.Props.C75_pool_partial",
    "Verif.Props.C75_shared",
    "Verif.Props.C75_out_of_range"
   ],
   "note": "All interleavings, under the condition that the threads have different numbers below the number of jobs, which C45 gives for one pool at a time (C75_pool_partial). With two pools alive the condition can fail, and then a worker uses a contractor that another has destroyed (C75_shared) or reads outside the vectors (C75_out_of_range). For boxes over other variables than those the contractor was made for, C75_own_partial says which sequential contractor is used. C75_sound_partial: no thread loses a solution."
  },
  {
   "property": "C76",
   "status": "partial",
   "theorems": [
    "Verif.Props.C76_timer",
    "Verif.Props.C76_phase_partial",
    "Verif.Props.C76_at_most",
    "Verif.Props.C76_off",
    "Verif.Props.C76_nested",
    "Verif.Props.C76_search_partial",
    "Verif.Props.C76_parallel_eval"
   ],
   "note": "The timer for all histories; guards for all programs that do not enter a phase again while it is measured. For nested guards the code reports too little (C76_nested), never too much (C76_at_most): the search for counterexamples of a quantified constraint runs inside the pruning phase of the outer search and uses the same static timers. The times of a search are right (C76_search_partial) except that of the evaluation in the parallel search, whose timer goes on after a box was found infeasible (C76_parallel_eval)."
  },
  {
   "property": "C77",
   "status": "partial",
   "theorems": [
    "Verif.Props.C77_no_exception_partial",
    "Verif.Props.C77_two_jobs_partial",
    "Verif.Props.C77_own_data_partial",
    "Verif.Props.C77_hang",
    "Verif.Props.C77_dangling",
    "Verif.Props.C77_barrier"
   ],
   "note": "The code does not have the property. For every search and every schedule: if a worker of the pool throws while it has a box, no worker returns any more unless another finds a solution, and the exception does not arrive (C77_hang). For every problem and every number of jobs above one, an interrupt that the main thread sees first leads to a use of variables that have gone (C77_dangling). Proved: without exceptions nothing changes (C77_no_exception_partial), and with two jobs an exception that the barrier throws again is harmless (C77_two_jobs_partial); with three it is not (C77_barrier)."
  },
  {
   "property": "C78",
   "status": "partial",
   "theorems": [
    "Verif.Props.C78_handler",
    "Verif.Props.C78_throws",
    "Verif.Props.C78_no_loss_partial",
    "Verif.Props.C78_lost"
   ],
   "note": "Handlers, the flag and the cause of exceptions for all programs (C78_handler, C78_throws). The code loses signals that arrive during a call after its last look at the flag: the destructor of the guard clears the flag (C78_lost, for all such calls); if the solver looks at the flag after every signal, none is lost (C78_no_loss_partial)."
  },
  {
   "property": "C79",
   "status": "partial",
   "theorems": [
    "Verif.Props.C79_attached_partial",
    "Verif.Props.C79_second_caller"
   ],
   "note": "For all histories in which one thread calls all searches. The code attaches only the caller of the first search, because the initialisation is a static variable: a second thread that calls a search pops without being attached, whatever happened before (C79_second_caller)."
  },
  {
   "property": "C80",
   "status": "proved",
   "theorems": [
    "Verif.Props.C80_once",
    "Verif.Props.C80_no_lost_wakeup",
    "Verif.Props.C80_join",
    "Verif.Props.C80_bounded",
    "Verif.Props.C80_not_stuck",
    "Verif.Props.C80_stopped"
   ],
   "note": "All interleavings; notifications are steps of their own, workers may wake up without reason (such wake-ups are not counted in C80_bounded). Tasks end; their exceptions stay in the futures."
  }
 ]
}