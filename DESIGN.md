# A machine-checked model of dReal4

`/repo` holds dreal/dreal4 (C++).  `/verif/lean` holds a Lean 4 model of it and the proofs.
`properties.jsonl` lists the properties, `MANIFEST.json` maps each property to theorems,
`seeded/LOG.jsonl` lists wrong programs the theorems were tried against.

Paths below are relative to `/repo/dreal`; `symbolic/` without a prefix is
`/repo/third_party/com_github_robotlocomotion_drake/dreal/symbolic`.

## 1. Trusted base

* Lean's kernel, version 4.33.0, and the three standard axioms `propext`, `Classical.choice`,
  `Quot.sound`.  No theorem uses any other axiom; there is no `sorry`, `native_decide`, `bv_decide`.
* Mathlib (order, rationals, reals, lists, finsets), imported module by module.
* The reading of the C++ code.  Every definition of the model cites the file and lines it models;
  simplifications are stated in that comment, and the important ones in section 4.
* What a theorem says is said by its statement and the definitions under `Spec/`, which do not use
  helper functions of the model other than its data types (formulas, boxes, statuses).
* Everything that is not code of `/repo` enters as a parameter with an assumption that is a
  hypothesis of the theorems using it (section 3).  `Spec/*Demo.lean` and `Spec/Sat.lean` give
  concrete instances that meet the assumptions, so that the theorems are not vacuous.

## 2. Shape of the model

| module under `Verif/Model` | models |
|---|---|
| `Outcome` | results: a value, an exception, undefined behaviour (failed assertion) |
| `Scoped` | `util/scoped_vector.h`, `scoped_unordered_map.h`, `scoped_unordered_set.h` |
| `OptionValue`, `Options` | `util/option_value.h`; `solver/config.h`, `SetOption`/`GetOption` of the context |
| `Itv`, `Box` | `ibex::Interval` as used by `util/box.h`; `util/box.cc` |
| `BoxHeap` | sharing and copy-on-write of the tables of `util/box.cc`, `operator[]` on unknown variables |
| `Syntax` | expressions and formulas, formula constructors of `symbolic/symbolic_formula.cc` |
| `Cells`, `ExprNorm` | expression and formula cells with `Less`/`EqualTo`; `+ - * / pow` and the two factories |
| `IbexConv` | `util/ibex_converter.cc` |
| `Diff` | `Differentiate` of `symbolic/symbolic_expression_cell.cc` |
| `Subst` | `Substitute` of expressions and formulas |
| `Nnf`, `Tseitin`, `Abstractor`, `Ite` | `util/nnfizer.cc`, `naive_cnfizer.cc`, `tseitin_cnfizer.cc`, `predicate_abstractor.cc`, `if_then_else_eliminator.cc` |
| `Strengthen` | `DeltaStrengthen`, `DeltaWeaken` of `symbolic/symbolic.cc` in dreal |
| `Eval` | `solver/expression_evaluator.cc`, `relational_formula_evaluator.cc` |
| `Filter` | `solver/filter_assertion.cc` |
| `Contractor` | `contractor/*.cc`: id, integer, seq, fixpoint, worklist fixpoint, join, IBEX wrappers, cells, generation |
| `Icp` | `solver/icp_seq.cc`, `icp_parallel.cc`, `icp.cc`, `brancher.cc` |
| `Explain` | `contractor/contractor_status.cc` |
| `Theory` | `solver/theory_solver.cc` |
| `Sat` | `solver/sat_solver.cc` |
| `Context`, `Session` | `solver/context_impl.cc`, `context.cc`; histories of calls |
| `Api` | `api/api.cc`: `CheckSatisfiability`, `Minimize` |
| `Script` | `smt2/run.cc`, `smt2/driver.cc`: `CheckSat`; the front end and the context together, with the shared counter of variable ids |
| `Dr` | `dr/parser.yy` actions, `dr/driver.cc`, `dr/run.cc`, with the context |
| `Forall` | `contractor/contractor_forall.h`, `solver/forall_formula_evaluator.cc`, `contractor/counterexample_refiner.cc` (its result) |
| `Minimize` | `Minimize` of `solver/context_impl.cc` |
| `Nlopt` | `optimization/nlopt_optimizer.cc` (which constraints are handed over) |
| `Smt2` | `smt2/driver.cc`, `parser.yy` actions, `term.cc`, `sort.cc`, `symbolic` functions they call |
| `Literal` | `smt2/scanner.ll` numbers, `util/string_to_interval.cc`, `util/math.cc` |
| `Refine` | `contractor/counterexample_refiner.cc` |
| `ScriptMin` | `smt2/parser.yy:209-217`, `solver/context.cc:57-63` |
| `Evaluate` | `Evaluate` of `symbolic/symbolic_expression_cell.cc`, `symbolic_formula_cell.cc`, `symbolic_environment.cc`; `optimization/cached_expression.cc`, `NloptOptimizerEvaluate`; `IsDifferentiable` of `symbolic/symbolic.cc`. `EvaluatePartial` is a parameter here |
| `Expand` | `Expand`, `Substitute` of `symbolic/symbolic_expression_cell.cc`, `EvaluatePartial` of `symbolic_expression.cc`; substitution in conditions is a parameter |
| `Attr` | attributes of cells: variables, `include_ite`, `is_polynomial` |
| `VarSet` | `symbolic/symbolic_variables.{h,cc}`, `HaveIntersection` of `symbolic/symbolic.cc` in dreal |
| `DrParse`, `DrScan` | `dr/parser.yy` (rules and precedences), `dr/scanner.ll` (rules): from the text of a file to a problem of `Dr` |
| `Smt2Parse`, `Smt2Scan` | `smt2/parser.yy` (rules), `smt2/scanner.ll` (rules): from the text of a script to commands |
| `Exec` | `smt2/parser.yy:123-282`, `smt2/driver.cc` (actions), `smt2/run.cc`, `dreal_main.cc`: commands executed one by one, objectives and exceptions included |
| `Main` | `dreal_main.cc`, `smt2/run.cc`, `dr/run.cc`, `get_extension` of `util/filesystem.cc`, `parse_file` and what a check prints of both drivers, `set-option` and `exit` between the commands of a script; how texts are read as commands is a parameter |
| `GetValue` | `smt2/driver.cc:132-249` (`GetValue`, `GetModel`), `smt2/parser.yy:203-207` |
| `Prefix` | `symbolic/prefix_printer.cc` in dreal; words of `smt2/scanner.ll`, productions for terms of `smt2/parser.yy` |
| `ThreadPool` | `ThreadPool.h` identities of workers |
| `CtcMt` | `contractor_ibex_fwdbwd_mt.cc`, `contractor_ibex_polytope_mt.cc`: `ContractorForallMt`: contractors shared between threads |
| `Timer` | `util/timer.cc`; timers of `icp_seq.cc` and `icp_parallel.cc` |
| `IcpThrow` | exceptions and interrupts in `icp_parallel.cc` (`Worker`, barrier of `CheckSat`); the checks for interrupts in the contractors are left out |
| `Signal` | `util/signal_handler_guard.cc`, `util/interrupt.cc`, the guarded calls of `dreal_py.cc`; where the solver looks at the flag is a parameter |
| `Cds` | `util/cds.h` and its use in `icp_parallel.cc`; that popping in a thread that is not attached is undefined is an assumption on the library |
| `TaskPool` | queue, condition variable and destructor of `ThreadPool.h`; locked sections are atomic, notifications are separate steps, tasks end |

`Spec/*` holds specifications and assumptions, `Proof/*` helper lemmas, `Props/*` the property
theorems, each with an `example` (or a concrete theorem) that meets its hypotheses.

Exceptions, failed assertions and undefined behaviour are distinct outcomes, never totalised away.
Loops without an a-priori bound (fixpoints, branch and prune, the SAT/theory loop, the mutually
recursive expression operators) take fuel and return "out of fuel" as a distinct outcome; theorems
are stated for every fuel, that is for every run that ends.  The parallel search and the thread
pool are transition systems and the theorems range over all their traces.

## 3. Assumptions about code outside `/repo`

| assumption | about | used by |
|---|---|---|
| `IOpsOk` | interval arithmetic of IBEX encloses the operations on reals | C18, C19, C23–C28, C34 |
| `IbexSound` | HC4 and polytope contractors only shrink, and keep points that satisfy their constraint and at which it is defined | C21–C28, C50 |
| `IbexLocal` | they change only the intervals of variables of their constraints, and empty a box as a whole | C26–C28 |
| `Fp` with its hypotheses | `mid`, the cut of `bisect`, `diam` of IBEX intervals: the cut is inside, a bisectable interval has a real midpoint, `diam` is at least the width | C05, C23–C25, C28, C32, C34 |
| `DblOk`, `Dbl` | `nextafter` gives neighbours | C20, C26–C28 |
| `PicosatOk` | "unsatisfiable" only for unsatisfiable clauses; a reported (partial) assignment satisfies all clauses | C27–C29, C33 |
| `ForallSound`, `ForallLocal` | the forall contractor; **met by the code** when the quantified variables are real (`C35_environment`) | C21–C28 |
| `noUnsat` | evaluators of quantified formulas never answer unsat; **met by the code** (`C34_environment`) | C23–C28 |
| `RoundsTo`, `rnd` | rounding of constant arithmetic is monotone and exact on doubles | C17, C28, C34 |
| `Arith.Exact` | arithmetic on constants while expressions are built is exact; false for doubles (`C48_rounding`) | C47, C48, C51, C52 |
| `hpow`, `hsqrt` in the statements | IBEX's powers of positive numbers and square roots are right; its other functions are those of the expression; literals are in their intervals | C51 |
| `Numerals` | which decimal `ostream` writes for a double (19 digits), `StringToInterval`, `stod` | C57 |
| `GridOps`, `FpGrid`, `LitGrid`, `hre`, `hm` in the statements | bounds come from a finite set (the doubles); contractors of IBEX only move bounds inwards; cuts are doubles inside; the refinement of counterexamples (NLopt) ends, midpoints are doubles | C67 |
| range parameter of `decLiteral` | when the C library reports a range error | C43 |

Elementary functions are given by an arbitrary interpretation `Interp` together with an arbitrary
domain `Dom`; statements about solutions speak of points at which the terms are defined.

## 4. Simplifications

* Doubles are rationals or ±∞; operations that round are parameters, or (literals, `nextafter`,
  integer conversion) are modelled on binary64 explicitly.
* In the solver models sums and products are binary (`Syntax`); the stored normal form is the subject
  of `Cells` and `ExprNorm`.  Which differences of terms are recognised as constant is approximated by
  linear normal forms.  NaN and uninterpreted functions occur only in `Cells`.
* Hash maps are functions; iteration orders of hash containers are not fixed by the theorems.
* Constraints added in one round of the explanation closure are looked at in the next round.
* A history of calls ends at the first call that throws.
* In `Smt2`, `Script` and `Main` scripts are lists of commands with terms as trees; how texts become
  such lists is the subject of `Smt2Parse` and `Smt2Scan`.  `Main` does not model scripts with
  objectives, and loses what was printed before an exception; `Exec` executes commands one by one,
  objectives included, and keeps what was printed.  Numbers of commands, nesting and names are
  unbounded.
* The grammar of SMT-LIB scripts has no conflicts, so its parser is a recursive descent over the
  rules; an exception in an action (unknown sort, bound that is no number) counts as a syntax error
  there, and terms are built without looking up names, which happens in `Smt2`.
* The parser and the scanner of the `dr` format are modelled by the rules in the source and the
  documented behaviour of `bison` (precedences decide conflicts) and `flex` (longest match, first
  rule); their generated tables are not.  That an exception while a file is read (a literal out of
  range, a bound that is no number) ends the program is not told apart from a syntax error.  The
  values of bounds are a parameter.
* In `Dr`, bounds and numbers are doubles (the code rounds
  decimal literals and bounds with `std::stod` and `Evaluate()`); of the arithmetic on constants only
  the change of sign is carried out.  The parser's end at an unknown name is an outcome of its own.
* The point found by the local optimiser in the counterexample refiner is arbitrary, but finite.
* Parallel search: sequentially consistent memory, the lock-free stack is linearizable; the events of
  the thread pool are atomic.
* Not modelled: printing (except `Prefix`, and the values of `GetValue`), logging, statistics (except the timers, `Timer`), signals (except `Signal` and `IcpThrow`), memory exhaustion, the Python bindings
  (except that `e += e` reaches the operator with one object on both sides), the QSopt remainder, performance.

## 5. Where the code does not do what the property says

Each is proved as a theorem with a concrete witness; the remaining part of the property is proved
under a hypothesis that excludes it (`…_partial`).

| property | disagreement | theorem |
|---|---|---|
| C05 | bisecting an integer variable with non-integral bounds fails its own assertion | `C05_nonintegral_bounds` |
| C07, C08, C19 | reading or writing an undeclared variable uses index 0, also in copies of the box | `C07_read_leaks_to_copies`, `C08_undeclared_*`, `C19_undeclared_variable` |
| C11 | two kinds of quantified formulas | see `Props/Tseitin.lean` |
| C15 | substitution under a quantifier captures | `C15_capture` |
| C16 | two different real constants with one representative are unordered; sets drop a conjunct | `C16_real_constant` |
| C17 | strengthening descends into conditions of if-then-else with the wrong polarity | `C17_ite` |
| C20 | strict bounds: reals between neighbouring doubles; negative strict upper bounds; Boolean variables | `C20_*` |
| C24, C28 | a box that cannot be split, or that meets no variable of a constraint, is returned | `C24_stuck_box`, `C24_no_variable`, `C28_stuck_box` |
| C26, C30 | contractors cached under other declarations are reused | `C26_stale_cache`, `C30_stale_contractor` |
| C28 | quantified assertions: the evaluator accepts a box when the counterexample found violates the formula by less than the precision, though others violate it grossly (delta-sat with `forall` is false) | `C28_quantified_fails` |
| C28 | conditions of if-then-else terms are weakened as well: a delta-sat answer may use the branch whose condition fails, and the value of the term jumps | `C28_conditional_exact_fails` |
| C28 | intervals of Boolean variables are overwritten; an empty interval of a later variable is not noticed | `C28_boolean_domain`, `C28_empty_component` |
| C29 | learned clauses survive `SetInterval` | `C29_stale_unsat` |
| C31 | auxiliary variables leak into models | `C31_leak` |
| C32 | tightening of models of integer and binary variables | see `Props/Session.lean` |
| C33 | `SetInterval` forgets assertions absorbed into the box | `C33_forgotten_bound`, `C33_forgotten_false` |
| C34 | the evaluator of quantified formulas says "valid" wrongly: boxes outside earlier ones, boxes with other variables, integers beyond 32 bits | `C34_stale`, `C34_alias`, `C34_range` |
| C35 | midpoints of quantified integer variables | `C35_integer` |
| C36 | `Minimize` throws if a related variable is Boolean | `C36_boolean` |
| C37 | rejected, overridden, aliased and ill-typed option values are reported as set | `C37_*` |
| C38 | names declared in a scope remain usable after `pop` | `C38_pop` |
| C38, C39 | a name given again in a scope keeps its inner meaning after the scope is closed | `C38_shadow` |
| C39, C40, C41 | `let` below quantifiers and in function bodies; bounds of quantified variables | `C39_let_forall`, `C39_let_function`, `C40_leak`, `C40_empty` |
| C43 | literals with a plus sign pass the scanner and throw | `C43_plus` |
| C45 | two thread pools share the numbering of workers | `C45_out_of_range`, `C45_shared` |
| C46 | the negation of a constraint is dropped | `C46_negated` |
| C47 | `(x²)^½·y` becomes `x·y`; `pow(pow(x,y),2)` is undefined behaviour; `e *= e` | `C47_root`, `C47_ub`, `C47_real`, `C48_alias` |
| C48 | real constants with one representative cancel; `e += e`; rounding | `C48_real`, `C48_alias`, `C48_rounding` |
| C51 | constants of both sides are merged with rounding; literals with one representative cancel | `C51_rounding`, `C51_real` |
| C52 | derivatives of products have no value where a factor is 0: `2·atan(x)` at 0 | `C52_zero` |
| C54 | a script that asks for an integer of at least 3000000000 is answered unsat | `C54_large_integer` |
| C56 | a name declared twice in a `dr` problem shadows the first declaration, whose variable stays in the problem | `C56_redeclared` |
| C57 | printed numbers are not read back: 19 digits of most doubles, integers beyond 2^53; real constants print their midpoint | `C57_digits`, `C57_large_integer`, `C57_real_constant` |
| C58 | `get-value` of a `let` term, or of a name declared after the check, prints the value of the first variable of the model | `C58_let`, `C58_stale` |
| C58 | `get-value` ends the program for terms without bounds and without a model, throws for if-then-else and compound formulas; a Boolean variable may be undetermined, which `get-model` prints as no value | `C58_no_value`, `C58_throws`, `C58_undetermined` |
| C59 | with local optimisation a bound on a variable that is not quantified is put on the first quantified one; formulas with equations fail an assertion | `C59_alias`, `C59_equation` |
| C60 | `(minimize t)` compares with the solutions of what was asserted before it: with a later assertion the answer may be unsat although there is an optimum | `C60_late` |
| C61 | products do not check the domain of powers: `x^½·y` at `x = -1` gives NaN, `x^½` throws | `C61_unchecked` |
| C61 | a negative number raised to an integer above `2³¹ − 1` is refused although it has a value | `C61_large_power` |
| C62 | the gradient is NaN at zeros of factors, although the derivative exists there | `C62_nan` |
| C63 | `sqrt(x)` is said to be differentiable; asked for the gradient at 0, the callback of the optimiser throws | `C63_sqrt` |
| C64 | expanding changes values: `((x + 1)² − 2x − 1)^½·y` becomes `x·y` | `C64_root` |
| C64 | expanding is not idempotent, the code's own assertions fail; the documented test for equality of polynomials tells `(x·y)²` and `x²·y²` apart, and `x/2` and `½·x` | `C64_again`, `C64_incomplete`, `C64_quotient` |
| C65 | substituting `z²` for `x` in `x^½·y` gives `z·y` | `C65_root` |
| C65 | substitution in an uninterpreted function loses the variables that are not replaced | `C65_uf` |
| C67 | with `--worklist-fixpoint` the fixpoint computation need not end: integral bounds beyond the range of `int` are not recognised as integers, so `ContractorInteger` reports a change every time, and the termination condition is not looked at in the loop | `C67_worklist_hangs` |
| C67 | strict bounds of integer and binary variables are always reported as not filtered, even if they have emptied the box; the theory solver then gives the contractors (those of quantified constraints included) an empty box (`dreal/solver/filter_assertion.cc:82-145`) | hypothesis `IntStrict` in `C67_quantified_partial` |
| C68 | `v.erase(v)` and `v -= v` are undefined: the loop advances an iterator to an erased element | `C68_self` |
| C69 | a file with a syntax error leaves nothing on the standard output and the status 0: the result of `parse_file` is not looked at (`smt2/run.cc:25-37`, `dr/run.cc:25-35`) | `C69_silent` |
| C69 | `--in` together with any argument that is no option (a mistyped option, say) opens a file of that name instead of the standard input; if there is none, nothing is printed and the status is 0 | `C69_in_file` |
| C71 | a comment on the last line of a `dr` file without an end of line is a syntax error (rule `"#".*[\n\r]+`), so the program prints nothing and exits with status 0 | `C71_open_comment` |
| C71 | outside of comments, a character that is not ASCII (a dash from a text processor, say) ends the file: constraints behind it are ignored without a message (`dr/scanner.ll:155-158`) | `C71_cut` |
| C71 | `5.e3` is read as the number `5.` and the name `e3` (`dr/scanner.ll:140-148`) | example in `Props/DrScan.lean` |
| C72 | `(set-option :precision 1)` with an integer, the standard commands `reset`, `echo`, `check-sat-assuming`, …, and `(< a b c)` are syntax errors; the rest of the file is ignored and the status is 0 | `C72_standard_fails` |
| C72 | names of functions (`max`, `min`, `log`, `exp`, …) cannot be declared or defined, although the standard leaves them to the user: the definition is a syntax error, and the rest of the file is ignored | `C72_standard_fails` |
| C73 | outside of comments, strings and bars, a character that is not ASCII ends the file without a message | `C73_cut` |
| C73 | `x` and `\|x\|` are different names; in the standard they are the same (`smt2/scanner.ll:234-238` keeps the bars) | `C73_bars_fails` |
| C73 | of `\|a\b\|` only `b\|` is kept, so that different names become the same: the action for a backslash does not call `yymore()` (`smt2/scanner.ll:239`) | `C73_backslash_fails` |
| C75 | with two thread pools (see C45) a worker uses a contractor that another worker with the same number has destroyed, or reads outside the vectors of contractors (`contractor_ibex_fwdbwd_mt.cc:49-58`) | `C75_shared`, `C75_out_of_range` |
| C76 | nested searches (quantified constraints) use the timers of the outer search, and stop them: the reported times are too small (`icp_seq.cc:39,55-60`) | `C76_nested` |
| C76 | the timer of the evaluation in the parallel search is not paused when a box is found infeasible (`icp_parallel.cc:128-135`), so waiting and pruning count as evaluation | `C76_parallel_eval` |
| C77 | a worker of the pool that throws keeps its box counted in `number_of_boxes`: the others go round for ever, and the exception in the future is never taken (`icp_parallel.cc:90-167`, `222-224`) | `C77_hang` |
| C77 | if the main thread throws (e.g. on an interrupt, `icp_parallel.cc:95-98`), `CheckSat` is left while workers use its local variables: undefined behaviour | `C77_dangling` |
| C77 | the barrier throws the exception of one worker while later workers still run (`icp_parallel.cc:222-224`): the same, with three jobs or more | `C77_barrier` |
| C78 | an interrupt that arrives after the last look at `g_interrupted` is lost: the destructor of the guard clears the flag, the call returns, the handler of Python is not told (`util/signal_handler_guard.cc:39-45`) | `C78_lost` |
| C79 | only the thread that calls the first parallel search is attached to libcds (`icp_parallel.cc:191`, a static variable); another thread that calls a search later uses the stack without being attached | `C79_second_caller` |

## 6. Method per property

* C01–C03: concrete containers (vector + sizes; map + undo log + marks) refine a stack of snapshots;
  induction over histories, error outcome included.  C04, C37: induction over assignment sequences.
* C05–C08: arithmetic on intervals; heap model with shared tables and an invariant over histories.
* C09–C15, C17: structural induction on formulas against a denotational semantics.
* C16: terms are mapped to codes; `Less` is the lexicographic order of codes; codes are injective.
* C18–C22, C50: induction on expressions and contractor trees, every fuel.
* C23–C25: invariant of the search stack; of all traces of the transition system.
* C26, C49: a point satisfying the explanation survives in the projection to the connected variables;
  least-closure characterisation.
* C27–C33: invariants over all histories of calls and all runs of the SAT/theory loop; for quantified
  assertions the environment is instantiated with the contractors and evaluators of C34, C35.  For
  delta-sat with if-then-else terms (`Spec/WeakIte.lean`): the truth values of the atoms at a point of
  the box decide, for every conditional, which definition of its variable is in force.
* C34, C35: any search for counterexamples keeps solutions; the nested context is such a search.
* C36, C46: both directions against a specification of minimisers and feasible points.
* C38–C42: induction over scripts and terms against an environment semantics of SMT-LIB.  With
  scopes (`Spec/Scopes.lean`, `Proof/Smt2Nest.lean`) the driver is related to the driver that has run
  only the commands in force: both have the same names in force, and what they do next is the same up
  to the numbers of new variables.
* C43, C44: rounding on an explicit binary64 grid.  C45: transition system.
* C47, C48: the operators keep a normal form and values, by induction on fuel for all operators at
  once; linear expressions also return.
* C51: simultaneous induction on cells, sums and products: the value is in the value set of the node.
* C52: simultaneous induction; each rule against the derivative in Mathlib, along any curve that moves
  one variable.
* C53: the calls of the library function are a history of C27–C31.
* C53, C54 with conditionals and variables that are not reported (`Props/CondFront.lean`): the same
  histories are ones of C28 with conditionals; a point of the model is extended to the hidden variables.
* C54: the front end runs with the ids that the context really takes.  An invariant of the driver
  (`Ordered`) says that a variable is declared right after it is made, bounds follow their
  declaration, and formulas mention declared variables only; so the calls are a history of C27, C28
  and C31 (`script_books`), and C39 says what they mean.
* C55: for histories without scopes the box and the stack say exactly what the problem says
  (`FlatInv`), so optima of the problem are minimisers in the sense of C36; the variables and the
  quantified constraint of `Minimize` are further calls of a history of C27.
* C56: the declarations and constraints of a `dr` problem are a history of C27, C28, C31 and C55
  (`posed_books`); trees and formulas have the same meaning, atoms and bounds by induction.
* C57: each printed cell is a block of words that the parser consumes exactly, by simultaneous induction
  on cells; the value of the term read is the value of the cell.
* C58: the terms are read in the state after the script, related to the driver that ran the commands in
  force as for C39; the interval evaluation of C18 encloses their values on the model of C54.
* C59: filtering as in C20, constraints as in C46, by induction over the conjuncts; refined
  counterexamples are among those C35 allows.
* C60: C55 for the books that C54 keeps of a script, and the value of the objective as in C58.
* C61: induction over expressions and formulas. C62: the cache invariant over histories, C61 for the
  derivatives of C52; that derivatives have no new conditions is `Proof/Keep.lean`, which shows that
  arithmetic and differentiation keep every property that goes down to parts and up again.
* C64, C65: induction on cells over the theorems of C47; `Rooted` names the powers for which the
  simplifier's `(b^p)^q = b^(p·q)` is wrong. `C64_identity_partial`: the expansion of a polynomial is a
  sum of distinct monomials (`Proof/Poly.lean`), which is zero everywhere only if it is the constant 0
  (`Proof/PolyZero.lean`, with `MvPolynomial.funext`).
* C69: case analysis of the command line; the options in force at each call are an invariant over the
  commands of a file (the log of calls only grows); with options set first the file is a script of
  C54.  An observation, not modelled: contractors for quantified formulas that were built before a
  `set-option :precision` keep the old precision (`solver/theory_solver.cc:186-193`).
* C68: refinement of ordered lists to `Finset`, one lemma per walk.
* C67: the number of grid points inside the box is a variant of the fixpoint loops; `2^(that + 1)`
  summed over the stack is one of the search.  For the parallel search the variant adds what the
  workers hold, at which place they are, and how far the first one is from taking a box; no step of any
  worker increases it, and as long as not all have returned some worker's next step decreases it, so
  rounds in which everybody moves are enough, in whatever order.  The number of partial assignments that satisfy the
  clauses is a variant of the loop between the solvers.  A round of the forall contractor either ends
  the loop or removes grid points; its nested context keeps an invariant (the abstraction and the SAT
  variables do not change, intervals of the outer variables are overwritten before each search), so the
  argument for a check applies to every search.  Rounds are fuel in the model; the theorems name
  an amount that is enough, and the code has no such limit.
* C66: structural induction; polynomials are Mathlib's `MvPolynomial`.
* C70: completeness by induction on the grammar, for every stack on which the construct may begin and
  every token that may follow; soundness by an invariant that says for every entry of the stack which
  tokens it stands for and at which level.  The number of steps is bounded by a variant.
* C71: patterns are matched by derivatives, shown equal to what they match; that no rule matches
  beyond a token is a case analysis of the rules, where the fixed strings are checked by computation
  (they are a finite table).
* C72: the reader takes fuel for the number of tokens; soundness by induction on the fuel,
  completeness by induction on how the tokens spell the term.
* C73: as C71; every rule that matches more than one character matches a comment, blanks, or
  characters of symbols, which tells what cannot be matched beyond a token.  The tables of words in
  the specifications of C71 and C73 are written down independently of the rules.
* C74: executing one by one and collecting the calls first make the same calls (an invariant between
  the two states: collecting does not depend on the calls already collected, and the counter of ids
  is the one of the context); what was printed is a list that only grows.
  Options may be set anywhere for `unsat` (`C74_options_partial`): the calls are then nested with the
  identifiers of the precision in force at each call, and the books of the context are kept call by
  call for a configuration that changes between calls (`file_books`).  For models
  (`C74_delta_options_partial`) the invariant is kept for the precisions of all checks at once.
* C75: transition system of the memory accesses; the invariant says who owns which entry.  Memory is
  sequentially consistent in the model: two threads never access the same entry when their numbers
  differ, so weaker memory makes no difference there.
* C76: invariant over histories; guards by structural induction on programs.
* C77: the counting invariant of C25 holds with exceptions as well, and a worker that has thrown keeps its share of the count.
* C78: induction over the program; a call is characterised by when signals and looks at the flag come.
* C79: invariant: attached are the caller and the threads whose guard is in use.
* C80: invariant (queue and log, who may be asleep); a measure bounds the useful steps.
