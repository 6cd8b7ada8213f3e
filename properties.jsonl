{"id": "C01", "title": "Accepted assignments satisfy every active constraint", "statement": "Whenever a propagation callback returns without reporting a conflict, the value the library reports for each variable (clingolpx_assignment_get_value) satisfies every &sum/&diff/&dom constraint whose literal is currently true on the solver trail.", "quantifier": "every program, every order of literals, every history of propagate/undo/check callbacks, every store mode, both numeric modes", "why_tests_cant": "the claim depends on the whole history of pivots and backtracking; unit tests run a handful of programs and histories", "anchors": ["libclingo-lpx/src/solving.cc: Solver::solve, Solver::update_bound_, Solver::select_, Solver::pivot_, Solver::get_value"]}
{"id": "C02", "title": "Clauses added by the theory never exclude a consistent model", "statement": "Every clause the library passes to clingo while solving (conflict clauses, bound conflicts, bound propagation, preprocessing) is satisfied by every truth assignment for which the constraints of its true literals have a common solution.", "quantifier": "every program, every reachable solver state, every emitted clause, every truth assignment and every solution", "why_tests_cant": "a wrong clause silently removes answer sets; only a proof over all states and assignments shows none is lost", "anchors": ["libclingo-lpx/src/solving.cc: Solver::select_, Solver::update_bound_, Solver::propagate_, Solver::prepare"]}
{"id": "C03", "title": "Conflict clauses are falsified by the current assignment", "statement": "When a propagation callback reports a conflict, every literal of the clause it adds is false under the current assignment, so clingo must backtrack, and the clause mentions only literals of constraints.", "quantifier": "every reachable state in which propagation fails", "why_tests_cant": "depends on which literals were asserted in the entire history", "anchors": ["libclingo-lpx/src/solving.cc: Solver::update_bound_, Solver::select_, Solver::solve"]}
{"id": "C04", "title": "Propagation always terminates", "statement": "A propagation callback returns after finitely many pivots for every state that can be reached; there is no program or history for which simplex cycles. The number of pivots is bounded by a function of the size of the program alone (number of variables, constraints with several variables, and objective), whatever the history.", "quantifier": "every reachable state and every set of newly true literals", "why_tests_cant": "non-termination (cycling) shows only on specific degenerate inputs; a test can only time out", "anchors": ["libclingo-lpx/src/solving.cc: Solver::solve, Solver::select_, Solver::enqueue_, Solver::pivot_"]}
{"id": "C05", "title": "The verdict depends only on the set of true constraints", "statement": "Propagation accepts iff the set of constraints of the currently true literals has a solution; the answer does not depend on the pivots made before, the order of literals, backtracking history or the --store option.", "quantifier": "every program, every history, every store mode", "why_tests_cant": "history independence ranges over unboundedly many histories", "anchors": ["libclingo-lpx/src/solving.cc: Solver::solve, Solver::store_sat_assignment, Solver::undo"]}
{"id": "C06", "title": "Backtracking restores exactly the constraints of the remaining levels", "statement": "After undo of a decision level, the lower and upper limits the solver enforces for every variable are exactly the ones that were enforced before that level was entered.", "quantifier": "every program and every history of propagate/undo callbacks", "why_tests_cant": "it must hold for all nestings of levels and all mixes of relations on one variable", "anchors": ["libclingo-lpx/src/solving.cc: Solver::undo, Variable::update_upper, Variable::update_lower"]}
{"id": "C07", "title": "Backtracking leaves a satisfying assignment", "statement": "Immediately after undo, without any further solving, the reported values again satisfy all constraints of the remaining levels and all defining equations.", "quantifier": "every history, every store mode (no, partial, total)", "why_tests_cant": "depends on trails of arbitrary length and on when assignments were stored", "anchors": ["libclingo-lpx/src/solving.cc: Solver::undo, Variable::set_value, Solver::store_sat_assignment"]}
{"id": "C08", "title": "Optimization keeps the assignment feasible", "statement": "Computing the optimum for a total assignment keeps all defining equations and all active constraints satisfied and does not change which constraints are active.", "quantifier": "every feasible reachable state and every objective", "why_tests_cant": "holds per pivot of an unbounded sequence", "anchors": ["libclingo-lpx/src/solving.cc: Solver::optimize, Solver::update_, Solver::pivot_"]}
{"id": "C09", "title": "A bounded objective value is optimal", "statement": "If the objective is reported as bounded (second argument of __lpx_objective is 1) then no solution of the active constraints has a larger objective value than the reported one.", "quantifier": "every feasible state and every competing solution", "why_tests_cant": "ranges over all real competitors", "anchors": ["libclingo-lpx/src/solving.cc: Solver::optimize, Solver::get_objective"]}
{"id": "C10", "title": "An unbounded objective is really unbounded", "statement": "If the objective is reported as unbounded then for every number there is a solution of the active constraints with a larger objective value.", "quantifier": "every feasible state and every number", "why_tests_cant": "needs a witness for every number", "anchors": ["libclingo-lpx/src/solving.cc: Solver::optimize"]}
{"id": "C11", "title": "Optimization always terminates", "statement": "The optimization performed when an assignment becomes total ends after finitely many steps for every feasible state and objective.", "quantifier": "every feasible reachable state", "why_tests_cant": "cycling shows only on special degenerate inputs", "anchors": ["libclingo-lpx/src/solving.cc: Solver::optimize"]}
{"id": "C12", "title": "Bound propagation only derives consequences", "statement": "With --propagate-bounds, every propagated clause states a consequence of the constraints: whenever the bounds named in the clause hold, the excluded bound cannot hold.", "quantifier": "every reachable tableau, every row, every mode (changed, full), every answer of the ASP solver to add_clause/propagate", "why_tests_cant": "depends on arbitrary tableaux", "anchors": ["libclingo-lpx/src/solving.cc: Solver::propagate_"]}
{"id": "C13", "title": "Preprocessing of conflicting bounds is sound and complete on pairs", "statement": "With --propagate-conflicts a binary clause is added exactly for the pairs of bounds on the same variable that exclude each other (and are not complementary or already false), and two bounds are reported as conflicting iff no value satisfies both.", "quantifier": "every pair of bounds", "why_tests_cant": "ranges over all rationals", "anchors": ["libclingo-lpx/src/solving.cc: Solver::prepare, Bound::conflicts"]}
{"id": "C14", "title": "Pivoting is exact and preserves the solution set", "statement": "Pivoting the sparse fraction-free tableau on a non-zero entry yields exactly the rational tableau of the exchanged system: same solutions, with no rounding, no lost and no spurious entries.", "quantifier": "every well-formed sparse tableau, every pivot position, every sequence of pivots", "why_tests_cant": "ranges over all integer matrices and pivot sequences", "anchors": ["libclingo-lpx/src/tableau.cc: Tableau::pivot, Tableau::simplify_", "doc/pivot.lyx"]}
{"id": "C15", "title": "The tableau is a matrix", "statement": "After any sequence of set, pivot and column-iteration calls, get(i,j) returns the value last written at (i,j) respectively its pivoted value, and 0 for all positions never set or set to zero.", "quantifier": "every sequence of operations", "why_tests_cant": "unbounded operation sequences", "anchors": ["libclingo-lpx/src/tableau.cc: Tableau::set, Tableau::get"]}
{"id": "C16", "title": "Column iteration is exact under lazy deletion", "statement": "update_col(j, f) calls f exactly once for each row whose entry in column j is non-zero, in increasing row order, although stale row indices are only lazily removed.", "quantifier": "every sequence of operations and every column", "why_tests_cant": "stale entries depend on the whole pivot history", "anchors": ["libclingo-lpx/src/tableau.hh: Tableau::update_col", "libclingo-lpx/src/tableau.cc: Tableau::pivot"]}
{"id": "C17", "title": "Epsilon numbers form an ordered vector space", "statement": "In strict mode values c+k*e are totally ordered lexicographically, order is preserved by addition and by multiplication with positive numbers, reversed by negative numbers, and mixed comparisons with integers and rationals agree with the embedding k=0.", "quantifier": "all rationals c, k and all scalars", "why_tests_cant": "infinite domain", "anchors": ["libclingo-lpx/src/number.hh: RationalQ, compare"]}
{"id": "C18", "title": "Strict constraints are decided exactly", "statement": "A set of strict and non-strict constraints has a rational solution iff the epsilon bounds built from it have a solution; and replacing e by any sufficiently small positive rational in an epsilon solution yields a rational solution of all strict constraints.", "quantifier": "every finite set of constraints, every epsilon solution", "why_tests_cant": "existence of a small enough epsilon is a universally quantified statement", "anchors": ["libclingo-lpx/src/solving.cc: bound_val<RationalQ>", "libclingo-lpx/src/number.hh: RationalQ"]}
{"id": "C19", "title": "Normalised bounds are equivalent to the constraint", "statement": "A constraint a*x rel b over a single variable is replaced by x rel' b/a, where the relation is flipped iff a is negative; both have the same solutions, including strict relations.", "quantifier": "all a != 0, b, x and relations", "why_tests_cant": "infinite domain", "anchors": ["libclingo-lpx/src/solving.cc: Solver::prepare, bound_rel, bound_val", "libclingo-lpx/src/problem.cc: invert"]}
{"id": "C20", "title": "Constant constraints are decided by arithmetic", "statement": "A constraint without variables, 0 rel c, forces its literal to false iff it is arithmetically false and has no effect otherwise.", "quantifier": "all constants c and all relations", "why_tests_cant": "infinite domain; relation/sign combinations", "anchors": ["libclingo-lpx/src/solving.cc: Solver::prepare"]}
{"id": "C21", "title": "Linear terms denote their arithmetic value", "statement": "Whenever an element or guard term is accepted, the list of coefficient/variable pairs extracted from it evaluates, for every valuation of the variables, to the arithmetic value of the term.", "quantifier": "every theory term of any depth and every valuation", "why_tests_cant": "unbounded terms", "anchors": ["libclingo-lpx/src/parsing.cc: parse_sum_elem, evaluate, evaluate_var, evaluate_num"]}
{"id": "C22", "title": "Non-linear and ill-formed terms are rejected", "statement": "A product is rejected whenever both factors contain variables, a quotient whenever the divisor is zero or not a number; a rejected atom raises an error and never yields a constraint.", "quantifier": "every theory term", "why_tests_cant": "unbounded terms", "anchors": ["libclingo-lpx/src/parsing.cc: parse_sum_elem, check_syntax"]}
{"id": "C23", "title": "Simplification preserves meaning and normalises", "statement": "Combining terms keeps the value of the linear expression for every valuation (constants moved to the right-hand side), and leaves each variable at most once with a non-zero coefficient.", "quantifier": "every list of terms and every valuation", "why_tests_cant": "unbounded lists", "anchors": ["libclingo-lpx/src/parsing.cc: simplify"]}
{"id": "C24", "title": "&sum, &diff and &dom atoms mean what the README says", "statement": "The constraints generated for an unconditional &sum, &diff or &dom atom hold under a valuation iff the atom's arithmetic reading holds: sum of elements rel guard, a-b rel guard, l <= x <= u.", "quantifier": "every atom and every valuation", "why_tests_cant": "unbounded atoms", "anchors": ["libclingo-lpx/src/parsing.cc: parse_theory, parse_diff_elem"]}
{"id": "C25", "title": "Conditional elements count iff their condition holds", "statement": "An element t:c contributes the value of t to its &sum if c is true and 0 otherwise; the auxiliary variables introduced for this always have a unique value given the other variables and the truth value of c.", "quantifier": "every atom with conditions, every truth assignment and every valuation", "why_tests_cant": "unbounded atoms and assignments", "anchors": ["libclingo-lpx/src/parsing.cc: parse_sum_elems"]}
{"id": "C26", "title": "Minimise is maximise of the negation", "statement": "All &minimize and &maximize directives together define one objective whose value under every valuation is the sum of the maximised minus the sum of the minimised elements; objectives with a non-zero constant are rejected.", "quantifier": "every set of directives and every valuation", "why_tests_cant": "unbounded", "anchors": ["libclingo-lpx/src/parsing.cc: parse_theory"]}
{"id": "C27", "title": "Decimal strings are exact", "statement": "A quoted string is read as a number iff it matches -?digits(.digits)?, and its value is exactly the rational it denotes, for any number of digits; other strings are symbols.", "quantifier": "all strings", "why_tests_cant": "infinite domain", "anchors": ["libclingo-lpx/src/parsing.cc: as_num, is_string"]}
{"id": "C28", "title": "The shared best objective is the maximum, under all interleavings", "statement": "Whatever the order in which solver threads report and read objective values, as long as no unbounded value has been reported the shared best value equals the maximum of the reported ones; it never decreases, unboundedness is permanent until the next solving step, and a reader is told about a value iff it changed since its last read (on its first read: iff a value has been reported).", "quantifier": "all interleavings of update and value calls by any number of threads", "why_tests_cant": "thread schedules", "anchors": ["libclingo-lpx/src/solving.cc: ObjectiveState::update, ObjectiveState::value, ObjectiveState::reset"]}
{"id": "C29", "title": "Global optimization cuts never exclude better solutions", "statement": "Bounds added for --objective=global,step have a value that is some reported objective value plus step (or an unbounded objective has been reported, in which case every further assignment is discarded); every assignment accepted afterwards with the cut literal true has an objective value of at least that sum, and no solution reaching that sum is excluded.", "quantifier": "every history and every reported objective value", "why_tests_cant": "depends on the history", "anchors": ["libclingo-lpx/src/solving.cc: Solver::integrate_objective, Solver::assert_bound_, Solver::discard_bounded"]}
{"id": "C30", "title": "The decision heuristic only flips the sign", "statement": "decide() returns the proposed literal or its negation; with --select=none always the proposed one; with match it returns the proposed literal if all its constraints hold and none of its negation's constraints holds under the current values, and dually for conflict; the decision depends only on the constraints of the two literals and the current values.", "quantifier": "all states, all literals, all settings", "why_tests_cant": "all reachable values", "anchors": ["libclingo-lpx/src/solving.cc: Solver::adjust, Propagator::decide"]}
{"id": "C31", "title": "Symbol indices are consistent", "statement": "lookup_symbol succeeds exactly for symbols occurring as variables, returns an index >= 1, get_symbol inverts it, and distinct symbols have distinct indices.", "quantifier": "all sequences of init calls (multi-shot) and all symbols", "why_tests_cant": "unbounded programs and steps", "anchors": ["libclingo-lpx/src/clingo-lpx.cc: LPXPropagatorFacade::lookup_symbol, get_symbol", "libclingo-lpx/src/solving.cc: Propagator::init, lookup_symbol, get_symbol"]}
{"id": "C32", "title": "Assignment iteration lists each user variable once", "statement": "Iterating with assignment_begin/assignment_next visits exactly the indices of the non-auxiliary variables, each once, in increasing order, and has_value is true for all of them.", "quantifier": "all programs", "why_tests_cant": "unbounded numbers of variables", "anchors": ["libclingo-lpx/src/clingo-lpx.cc: LPXPropagatorFacade::next, has_value"]}
{"id": "C33", "title": "Symbol indices are stable across solving steps", "statement": "An index obtained in one solving step refers to the same symbol in all later steps.", "quantifier": "all multi-shot sequences of programs", "why_tests_cant": "unbounded sequences", "anchors": ["libclingo-lpx/src/solving.cc: Propagator::init"]}
{"id": "C34", "title": "Facts of earlier steps stay in force", "statement": "In every later solving step, all constraint literals that became true at the top level (seen by thread 0) in earlier steps are asserted again in each thread's solver before any model is accepted there.", "quantifier": "all multi-shot histories and all threads", "why_tests_cant": "unbounded histories", "anchors": ["libclingo-lpx/src/solving.cc: Propagator::init, check, propagate"]}
{"id": "C35", "title": "configure() sets exactly the named option", "statement": "clingolpx_configure(key, value) with a documented key and value sets exactly that option and returns true; with an invalid key or value it returns false and changes nothing.", "quantifier": "all keys and values", "why_tests_cant": "infinite strings", "anchors": ["libclingo-lpx/src/clingo-lpx.cc: clingolpx_configure, parse_bool, parse_select, parse_store, parse_propagate, parse_objective"]}
{"id": "C36", "title": "Option values are parsed case-insensitively and exactly", "statement": "Each option parser accepts exactly the documented words, in any letter case, sets only its own option and leaves all options unchanged when it rejects; the command line knows exactly the documented options.", "quantifier": "all strings", "why_tests_cant": "infinite strings", "anchors": ["libclingo-lpx/src/clingo-lpx.cc: iequals_pre, iequals, parse_select, parse_store, parse_propagate, parse_objective, clingolpx_register_options"]}
{"id": "C37", "title": "Epsilon steps require strict mode", "statement": "validate_options fails iff a symbolic epsilon step is configured without --strict, so non-strict solving never has to convert an epsilon number.", "quantifier": "all option settings", "why_tests_cant": "combinations of options", "anchors": ["libclingo-lpx/src/clingo-lpx.cc: clingolpx_validate_options", "libclingo-lpx/src/number.hh: RationalQ::as_rational"]}
{"id": "C38", "title": "Accumulated statistics are exact sums", "statement": "After each step the accumulated pivot and propagation counts equal the sum over all steps and threads, and the step counts the sum over all threads of this step.", "quantifier": "any number of steps and threads", "why_tests_cant": "unbounded steps", "anchors": ["libclingo-lpx/src/solving.cc: Propagator::on_statistics"]}
{"id": "C39", "title": "No undefined behaviour in the solver core", "statement": "No callback dereferences a null bound, reads the last element of an empty trail, divides by zero or accesses a missing tableau cell or an index out of range.", "quantifier": "every program and history", "why_tests_cant": "memory errors occur on rare states", "anchors": ["libclingo-lpx/src/solving.cc: Solver::update_bound_, Variable::update_lower, Solver::undo, Solver::pivot_, Solver::optimize", "libclingo-lpx/src/tableau.cc: Tableau::unsafe_get"]}
{"id": "C40", "title": "Safe casts are exact or fail", "statement": "safe_cast returns the same mathematical value in the target type or throws.", "quantifier": "all integer types and values", "why_tests_cant": "2^64 values", "anchors": ["libclingo-lpx/src/util.hh: safe_cast"]}
{"id": "C41", "title": "Printed values are the usual notation and determine the number", "statement": "A value is printed as an integer in decimal notation (minus sign exactly if negative, no leading zeros) or as a fraction a/b in lowest terms with b > 1; with --strict as c, e, k*e, c+e or c+k*e with c and k printed that way. Two values print to the same string only if they are equal.", "quantifier": "all values of both numeric modes", "why_tests_cant": "infinite domain", "anchors": ["libclingo-lpx/src/number.hh: operator<<(RationalQ)", "libclingo-lpx/src/clingo-lpx.cc: extend_model"]}
{"id": "C42", "title": "Threads do not influence each other's soundness", "statement": "For every interleaving of the callbacks of any number of solver threads, each thread's accepted assignments satisfy its own active constraints and all its clauses are valid.", "quantifier": "all interleavings and numbers of threads", "why_tests_cant": "thread schedules", "anchors": ["libclingo-lpx/src/solving.cc: Propagator"]}
{"id": "C43", "title": "Division by zero inside terms is rejected", "statement": "A term containing a division by an expression that evaluates to zero raises a syntax error, wherever it occurs.", "quantifier": "every theory term", "why_tests_cant": "unbounded terms", "anchors": ["libclingo-lpx/src/parsing.cc: evaluate, parse_sum_elem"]}
{"id": "C44", "title": "Answer sets satisfy the program, end to end", "statement": "From the theory atoms as written to the values in a reported model: the reported values satisfy every true &sum/&diff/&dom atom, no truth assignment that has a solution is excluded or rejected, and an objective value reported as bounded is attained by the reported values and is maximal among all solutions.", "quantifier": "every program, every sequence of solving steps, every history of callbacks, any number of threads", "why_tests_cant": "unbounded programs and histories", "anchors": ["libclingo-lpx/src/parsing.cc: evaluate_theory", "libclingo-lpx/src/solving.cc: Propagator, Solver"]}
{"id": "C45", "title": "Programs without mixed equations are solved correctly in every history", "statement": "If no equation over a single variable satisfies an inequality over the same variable alone with slack, as `x = 3` does `x <= 5` but not `x >= 3` (in particular if the program uses no `=` in &sum/&diff and no conditional elements), then for every history of callbacks, with any number of threads, steps, conflicts and backtracking: accepted assignments satisfy the true constraints, clauses exclude no consistent model, without bound propagation literals are accepted iff the true constraints are satisfiable, backtracking restores the limits, bounded objective values are optimal, unbounded ones are unbounded, check terminates, no undefined behaviour occurs, and reported values satisfy the atoms as written.", "quantifier": "for all programs without mixed equations, all histories of callbacks that clingo may produce, all threads, all options", "why_tests_cant": "the number of histories and programs is infinite; the defect this excludes depends on the order of propagation and backtracking", "anchors": ["libclingo-lpx/src/solving.cc: Solver::update_lower", "libclingo-lpx/src/solving.cc: Solver::undo", "libclingo-lpx/src/solving.cc: Propagator"]}
{"id": "C46", "title": "Branch and bound with a global objective finds the optimum", "statement": "With --objective=global,<step>: every accepted total assignment in which the cuts hold is better than all models reported before by at least the step (or unbounded once an unbounded objective has been reported); no truth assignment with a solution better by the step than everything reported, and none with an unbounded objective, is excluded by the clauses; so when the clauses exclude everything, every solution is less than the step better than a reported value, or an unbounded objective has been reported.", "quantifier": "every program, all interleavings of callbacks of any number of threads, all reported models", "why_tests_cant": "the set of programs, schedules and histories of reported models is infinite", "anchors": ["libclingo-lpx/src/solving.cc: Propagator::check, on_model, integrate_objective, discard_bounded, assert_bound_", "libclingo-lpx/src/solving.hh: ObjectiveState"]}
{"id": "C47", "title": "The optimum depends only on the true constraints", "statement": "Whenever the objective is reported after a check of a total assignment, its value and whether it is bounded are determined by the objective and the set of true constraints: two reports for the same task agree, whatever the options (selection heuristic, stored assignments, bound propagation, global objective), the threads, the number of solving steps and the histories of propagation and backtracking; in strict mode this includes the coefficient of epsilon.", "quantifier": "all pairs of reachable states with the same true constraints", "why_tests_cant": "the number of pairs of histories is infinite", "anchors": ["libclingo-lpx/src/solving.cc: Solver::optimize, Solver::solve, Solver::select_"]}
{"id": "C48", "title": "Strict mode is conservative", "statement": "For programs without strict relations, running with and without --strict gives the same result: the same literals are accepted, the objective is bounded in both or in none, and the optimum reported in strict mode is the one reported without, with no epsilon.", "quantifier": "all programs without strict relations, all pairs of histories", "why_tests_cant": "the number of programs and histories is infinite", "anchors": ["libclingo-lpx/src/solving.cc: Solver::prepare", "libclingo-lpx/src/clingo-lpx.cc: clingolpx_register", "libclingo-lpx/src/number.hh: RationalQ"]}
{"id": "C49", "title": "The theory definitions fit the parser", "statement": "Every theory atom that clingo admits with the registered theory definition is read by the propagator, none is ignored; &dom is written with = and objectives without a relation; constraints and domains occur only in heads, objectives only as facts, none of them in bodies; constraints and domains occur only in heads, objectives only as facts, none of them in bodies; without --strict the strict relations are rejected by clingo, so that every program that gets through leads to constraints the solver supports, and the values reported satisfy the true atoms exactly.", "quantifier": "all theory atoms and programs, both theory definitions, all histories", "why_tests_cant": "the number of programs is infinite", "anchors": ["libclingo-lpx/src/parsing.hh: THEORY, THEORY_Q", "libclingo-lpx/src/clingo-lpx.cc: clingolpx_register", "libclingo-lpx/src/parsing.cc: evaluate_theory, parse_constraint"]}
{"id": "C50", "title": "Theory terms are read with the usual precedence", "statement": "Terms in &sum, &diff, &minimize, &maximize and &dom are read with the usual precedence and associativity: unary minus binds strongest, then * and /, then + and -, then .. (only in &dom), all binary operators to the left; terms that have no such reading are rejected.", "quantifier": "all theory terms of any length", "why_tests_cant": "the number of terms is infinite", "anchors": ["libclingo-lpx/src/parsing.hh: THEORY, THEORY_Q"]}
{"id": "C51", "title": "Printed models show exactly the assignment and the objective", "statement": "The application prints, for each model, the shown atoms, one entry variable=value for each variable of the user with its value, none for variables introduced internally, and a line for the objective if and only if there is one, telling its value and whether it is bounded.", "quantifier": "all reachable states, threads and sets of shown atoms", "why_tests_cant": "the number of programs and histories is infinite", "anchors": ["app/src/main.cc: App::print_model", "libclingo-lpx/src/clingo-lpx.cc: LPXPropagatorFacade::extend_model"]}
{"id": "C52", "title": "Assertions never fail", "statement": "A debug build of the library never aborts: no assertion in the library fails in any callback clingo makes, for any program, options and history. The same holds for a build with CLINGOLPX_CROSSCHECK, which compares the values, the tableau and the limits with each other at many points.", "quantifier": "all programs admitted by the theory definition, all options, all histories of callbacks, threads and numbers of iterations", "why_tests_cant": "assertions are only checked for the histories that are executed", "anchors": ["libclingo-lpx/src/solving.cc: assert, assert_extra, check_tableau_, check_basic_, check_non_basic_, check_solution_", "libclingo-lpx/src/tableau.cc: Tableau::pivot", "libclingo-lpx/src/util.hh: assert_extra"]}
{"id": "C53", "title": "Callbacks stop after a rejected clause", "statement": "Once clingo rejects a clause (add_clause or the following propagate returns false), the callback adds no further clause: of the clauses added in a call of init, propagate or check all but the last one have been accepted, and if the callback did not break off, so has the last one. After a rejection in init no further thread is prepared.", "quantifier": "all states of the propagator (reachable or not), all programs, literals, threads and answers of clingo", "why_tests_cant": "the answers of clingo depend on the search and cannot be enumerated", "anchors": ["libclingo-lpx/src/solving.cc: Solver::prepare, Solver::solve, Solver::propagate_, Solver::assert_bound_, Propagator::check, Propagator::init"]}
{"id": "C54", "title": "Overlapping callbacks of several threads have the effect of successive ones", "statement": "However the callbacks (propagate, check, undo, on_model) of different solver threads overlap in time, the shared state and the state of every thread that is not in a callback are the same as after some run in which the callbacks happen one after the other, and all such runs are possible.", "quantifier": "all programs, options, numbers of threads and all interleavings of the steps of overlapping callbacks over any number of solving steps, provided no freed buffer was accessed (C55)", "why_tests_cant": "the interleavings of steps are unbounded and depend on the scheduler", "anchors": ["libclingo-lpx/src/solving.cc: Propagator::propagate, Propagator::check, Propagator::on_model, Propagator::undo, ObjectiveState::update, ObjectiveState::value"]}
{"id": "C55", "title": "No access to freed memory with several threads", "statement": "No callback uses a pointer into the list of facts kept between solving steps after another thread has reallocated that list.", "quantifier": "all programs, options, numbers of threads and all interleavings of the steps of overlapping callbacks over any number of solving steps", "why_tests_cant": "the race needs a particular schedule and buffer capacity; a run without the symptom shows nothing", "anchors": ["libclingo-lpx/src/solving.cc: Propagator::propagate, Propagator::check"]}
{"id": "C56", "title": "Exactly the well-formed programs are accepted", "statement": "Preparing a program succeeds only if every theory atom of the theory has the documented form (element and guard shapes, relation, linear terms, no conditions in &dom and &diff) and the objective has no constant part; conversely every such program is accepted, except that an overflow error may be reported when more than 2^31-1 auxiliary variables for conditional elements are needed.", "quantifier": "all programs, all earlier steps, both number back ends", "why_tests_cant": "infinitely many programs; acceptance of all well-formed ones cannot be sampled", "anchors": ["libclingo-lpx/src/parsing.cc: evaluate_theory, parse_theory, parse_sum_elems, parse_diff_elem"]}
{"id": "C57", "title": "Strings name variables faithfully", "statement": "A string used as a variable is read as exactly that string, whatever characters (newlines, quotes, backslashes) it contains, so that different strings are different variables.", "quantifier": "all strings", "why_tests_cant": "infinite domain", "anchors": ["libclingo-lpx/src/parsing.cc: unquote, evaluate"]}
{"id": "C58", "title": "The number classes compute exactly", "statement": "Every constructor, assignment and operator of the classes for integers and rationals (const, temporary and in-place overloads; operands of all three types) gives the exact result with both arithmetic libraries, keeps fractions in lowest terms with a positive denominator, changes no object but its target (or a temporary left operand), reports divisions by zero, and every comparison gives the answer of the mathematical order.", "quantifier": "all values, all positions of the operands in memory including aliased ones, both libraries", "why_tests_cant": "infinite domain; the wrong answers only appear for numbers beyond 2^62 and depend on the memory allocator", "anchors": ["libclingo-lpx/src/number_flint.hh: Integer, Rational", "libclingo-lpx/src/number_imath.hh: Integer, Rational"]}
{"id": "C59", "title": "Both arithmetic libraries give the same results", "statement": "A build with FLINT and a build with IMath accept the same programs, read the same constraints and objective from them and go through the same states in every session, so clauses, verdicts, assignments, objective values and statistics agree; the only difference is how a division by zero in a term is reported (FLINT aborts, IMath throws), so only a session with IMath can go on after it.", "quantifier": "all terms, all programs, all sequences of callbacks, both value types", "why_tests_cant": "infinitely many programs and schedules; tests are run with one of the libraries", "anchors": ["libclingo-lpx/src/parsing.cc: evaluate, parse_sum_elem, evaluate_theory", "libclingo-lpx/src/number.hh", "CMakeLists.txt: CLINGOLPX_USE_FLINT, CLINGOLPX_USE_IMATH"]}
{"id": "C60", "title": "Printed models can be read back", "statement": "The text printed for a model determines the model: if the application prints the same text for two models, possibly of different programs, then the shown atoms are the same and in the same order, the same variables are listed with the same exact values, and both have the same objective value and bounded/unbounded mark or both have none. Printed symbols are never ambiguous, also with quotes, backslashes or line breaks in strings.", "quantifier": "all reachable states of all programs, all shown atoms and variables, both value types", "why_tests_cant": "ranges over all pairs of models and all symbols", "anchors": ["app/src/main.cc: App::print_model", "libclingo-lpx/src/clingo-lpx.cc: extend_model", "libclingo-lpx/src/number.hh: operator<<"]}
{"id": "C61", "title": "Life cycle of a theory object", "statement": "Each option has the value given by the last accepted call that sets it, by clingolpx_configure or on the command line, or its default; options do not influence each other, and rejected calls have no effect. clingolpx_register fixes the options: the propagator uses the values set before, whatever is called afterwards; strict mode selects arithmetic with epsilon and the theory with strict relations; the decision callback is registered if and only if a heuristic is selected, and leaving it out is unobservable otherwise. A call returns true if and only if it sets an option; validation fails if and only if the objective step has an epsilon part and strict mode is off.", "quantifier": "all sequences of calls, all keys and values, all answers of clingo", "why_tests_cant": "ranges over all sequences of calls and strings", "anchors": ["libclingo-lpx/src/clingo-lpx.cc: clingolpx_create, clingolpx_register, clingolpx_configure, clingolpx_register_options, clingolpx_validate_options, LPXPropagatorFacade", "libclingo-lpx/clingo-lpx.h"]}
{"id": "C62", "title": "Error messages of clingolpx_configure", "statement": "When clingolpx_configure returns false, the error message says whether the key or the value is invalid and quotes the key that was passed.", "quantifier": "all keys and values", "why_tests_cant": "all strings", "anchors": ["libclingo-lpx/src/clingo-lpx.cc: check_parse, clingolpx_configure"]}
{"id": "C63", "title": "The Python application shows the same assignment", "statement": "For the same model, python -m clingolpx prints the text that clingo-lpx prints except for the line of the objective, and raises no exception.", "quantifier": "all reachable states, threads and sets of shown atoms, both value types", "why_tests_cant": "Quantifies over all programs, values and orders of the theory symbols; tests compare a few outputs.", "anchors": ["libpyclingo-lpx/clingolpx/__main__.py:ClingoLPXApp.print_model", "app/src/main.cc:App::print_model", "libclingo-lpx/src/clingo-lpx.cc:extend_model"]}
{"id": "C64", "title": "Clauses are unit or conflicting", "statement": "Every clause the library adds in propagate, or in check for facts of earlier steps, is conflicting or unit when it is added: it consists of negated literals of constraints (or cuts), all of them are false, or all but the last one, which is not true given the clauses added before. All other clauses added by check consist of the new literal of an objective cut.", "quantifier": "all reachable states, calls of propagate and check, all their clauses, all propagation modes", "why_tests_cant": "Whether all literals of a clause are false depends on which bounds the solver remembers after any number of backtracks; tests only notice wrong models, not clauses that are not yet unit.", "anchors": ["libclingo-lpx/src/solving.cc:Solver::propagate_", "libclingo-lpx/src/solving.cc:Solver::solve", "libclingo-lpx/src/solving.cc:Solver::assert_bound_"]}
{"id": "C65", "title": "Branch and bound makes progress", "statement": "With --objective=global,<step> and a positive step, no two models reported in a solving step make the same set of constraints true, if each is reported after a successful check of its total assignment with the literals of the cuts true and no unbounded objective is reported. So at most 2^n models are reported for n constraints: branch and bound terminates.", "quantifier": "all reachable histories of a solving step, any number of threads and models in any order, all programs, objectives and positive steps", "why_tests_cant": "Termination of the enumeration is a statement about all sequences of models and backtracking; a test sees one search.", "anchors": ["libclingo-lpx/src/solving.cc: Propagator::check, Propagator::on_model, Solver::integrate_objective, Solver::discard_bounded", "libclingo-lpx/src/solving.hh: ObjectiveState"]}
{"id": "C66", "title": "The result of a search", "statement": "When the search of some thread ends because the clauses it added and those it may have received from other threads exclude every truth assignment clingo searches through, the answer is right: without a global objective no such truth assignment has a solution of its true theory atoms (UNSATISFIABLE), and with one either an unbounded objective has been reported, or nothing has been reported and there is no solution, or the largest value reported is final, that is, no solution of any such truth assignment reaches that value plus the step.", "quantifier": "all reachable histories, any number of threads and any exchange of clauses between them, all programs, options and objectives, every set of truth assignments clingo may search through", "why_tests_cant": "A wrong clause of one thread only matters in combination with the clauses of the others; the statement ranges over all interleavings and all truth assignments and solutions.", "anchors": ["libclingo-lpx/src/solving.cc: Solver::solve, Solver::assert_bound_, Solver::integrate_objective, Solver::discard_bounded, Propagator::check", "libclingo-lpx/src/clingo-lpx.cc"]}
{"id": "C67", "title": "The reasons for conflicts are irreducible", "statement": "Every clause a thread adds is an objective cut, or excludes the literal of a constraint without variables, or consists exactly of the negated literals of a set of theory atoms with variables (and cuts) that has no common solution while dropping any one of them leaves a set with a common solution. In particular, if different atoms have different literals, no literal of a clause with at least two literals is redundant.", "quantifier": "all reachable histories, all programs, options, objectives and cuts, all clauses of all threads, all valuations of the variables", "why_tests_cant": "Whether a reason is contradictory and irreducible is a statement about all valuations of the variables, for every conflict in every history; a redundant or missing literal only shows as weaker learning or as a lost answer elsewhere.", "anchors": ["libclingo-lpx/src/solving.cc: Solver::select_, Solver::solve, Solver::assert_bound_, Solver::update_bound_, Solver::propagate_, Solver::add_conflicts_, Solver::prepare"]}
{"id": "C68", "title": "Bound propagation is complete for rows", "statement": "With --propagate-bounds=full, after a successful propagate every constraint whose left-hand side is the basic unknown of a row and which is excluded by the limits currently imposed on the non-basic unknowns is already false or a clause has been added that consists of negated literals of imposed limits and the negation of the constraint's literal. With changed the same holds for every row whose basic unknown, value or equation changed in the call. With none a successful propagate adds no clauses.", "quantifier": "all reachable histories (including those in which limits are lost), all programs, threads, control objects and propagated literals, all constraints and rows, all values of the unknowns", "why_tests_cant": "A missed propagation does not change the answers, only the search; that no row and no constraint is ever missed, whatever the pivots that led to the row, has to be shown for all tableaux and all limits, and exclusion is a statement about all values of the unknowns.", "anchors": ["libclingo-lpx/src/solving.cc: Solver::solve, Solver::propagate_, Solver::enqueue_, Solver::update_, Solver::pivot_, Solver::prepare"]}
{"id": "C69", "title": "The numbers in the tableau stay small", "statement": "If every constraint over several variables and the objective can be multiplied by an integer of absolute value at most M so that all coefficients are integers of absolute value at most M, then at any time the denominators and numerators stored in a tableau with m rows have absolute value at most m! * M^m, however many pivots were made; the rows are always stored in lowest terms.", "quantifier": "all reachable histories (including those in which limits are lost), all programs, options, threads and rows", "why_tests_cant": "Growth of numbers shows only after long sequences of pivots on particular programs; that no sequence of pivots exceeds the bound is a statement about all bases reachable by pivoting.", "anchors": ["libclingo-lpx/src/tableau.cc: Tableau::pivot, Tableau::simplify_, Tableau::set", "libclingo-lpx/src/solving.cc: Solver::prepare, Solver::pivot_"]}
{"id": "C70", "title": "Numbers with an epsilon component are computed exactly in memory", "statement": "Every overload of every operator of RationalQ (copies, moves, assignments, swap, +, -, unary minus, *, /, comparisons, compare, is_rational, as_rational; the right operand a fixed size integer, an Integer, a Rational or a RationalQ; the left operand constant, a temporary or assigned to) yields the exact componentwise result or the lexicographic comparison, puts it where it belongs and changes no other object, also when both operands are the same object or the right operand is the reference returned by as_rational. Divisions by zero are reported.", "quantifier": "all numbers, all memory layouts with the same or disjoint operands, both libraries", "why_tests_cant": "The operands range over an unbounded domain and aliasing combinations (same object, reference to a member, temporaries) multiply the overloads; a wrong order of updates shows only for particular aliasing.", "anchors": ["libclingo-lpx/src/number.hh: class RationalQ and its operators, compare"]}
{"id": "C71", "title": "Debug builds behave like release builds", "statement": "Compiling clingo-lpx without NDEBUG changes nothing: init, propagate, check and undo of a debug build return the same results and leave the same state as those of a release build and never abort, in every history of callbacks clingo may make. (For builds with CLINGOLPX_CROSSCHECK see C52.)", "quantifier": "all programs (without strict relations if strict mode is off), all histories of callbacks and answers of clingo, all numbers of loop iterations", "why_tests_cant": "An assertion may fail, or may be the only place where a range is checked, in a state reached only by a particular sequence of pivots and backtracking; tests in debug mode cover finitely many histories.", "anchors": ["libclingo-lpx/src/solving.cc: assert in basic_, non_basic_, enqueue_, pivot_, select_, optimize, solve, bound_val, get_non_basic", "libclingo-lpx/src/tableau.cc: assert in pivot", "libclingo-lpx/src/parsing.cc: assert in unquote"]}
{"id": "C72", "title": "The shared objective is accessed atomically", "statement": "With several threads, reports of objective values and queries of the best value so far that overlap in time behave as if each had its effect at a single moment between call and return: no thread sees a value that nobody reported or a value together with the bounded/unbounded mark of another one, there are no data races on the shared objective and no deadlocks, with and without std::shared_mutex.", "quantifier": "any number of threads, any number of overlapping calls, all interleavings of single memory accesses, all values, both kinds of mutexes", "why_tests_cant": "Races and torn values depend on the interleaving of single memory accesses; tests see a vanishing fraction of the schedules.", "anchors": ["libclingo-lpx/src/solving.cc: ObjectiveState::reset, ObjectiveState::update, ObjectiveState::value", "libclingo-lpx/src/solving.hh: class ObjectiveState"]}
{"id": "C73", "title": "The memory of a solver is bounded by the program and the trail", "statement": "However many callbacks there were, the data structures a solver keeps between them are bounded by the size of the program and the current trail of the search: variables, rows, columns (including lazily deleted entries), one offset per decision level, at most one saved value per variable and decision level, at most two saved limits per asserted bound, at most one queue entry per row, and one bound per constraint (plus objective bounds, only with a global objective). The heap of violated variables is empty after each call that succeeds.", "quantifier": "all programs, all histories of callbacks of any length, all options, all numbers of threads", "why_tests_cant": "A leak of one entry per callback shows up only after long runs; tests run short searches and do not look at the sizes of private members.", "anchors": ["libclingo-lpx/src/solving.hh: class Solver (bound_trail_, assignment_trail_, trail_offset_, conflicts_, propagate_queue_)", "libclingo-lpx/src/solving.cc: Solver::solve, Solver::undo, Variable::set_value, Solver::enqueue_, Solver::propagate_, Solver::select_", "libclingo-lpx/src/problem.hh: class Tableau"]}
{"id": "C74", "title": "A rejected program does not influence later solving steps", "statement": "If init throws because a theory atom of the grounded program is rejected, and the application catches the exception, then later solving steps behave as if the rejected program had not been grounded: the constraints and the objective are those of the accepted programs, a program accepted without the failure is accepted after it, and the symbol table, the values, the objective and the clauses are unchanged by the failure.", "quantifier": "all sequences of accepted and rejected programs, all reasons for a rejection and positions of the rejected atom, all histories of callbacks in between, all assignments", "why_tests_cant": "The atom that is rejected, the atoms read before it and the programs grounded afterwards can be anything; the project's tests stop at the exception.", "anchors": ["libclingo-lpx/src/solving.cc: Propagator::init", "libclingo-lpx/src/parsing.cc: evaluate_theory, parse_dom, parse_sum, parse_elem"]}
{"id": "C75", "title": "Indices, levels and offsets fit into 32 bits", "statement": "The solver keeps indices of variables, rows and columns, decision levels and offsets into its trails in 32 bit members, to which sizes are converted without a check. However long the session is, no such number is changed by the conversion, as long as the number of variables and constraints over several variables, this number times the number of decision levels, and twice the number of asserted bounds are less than 2^32.", "quantifier": "all programs and trails within these limits, all histories of callbacks of any length, all options, all numbers of threads", "why_tests_cant": "Truncation happens only for sizes far beyond any test, and a number that grows with the number of callbacks would need billions of them.", "anchors": ["libclingo-lpx/src/tableau.hh: index_t", "libclingo-lpx/src/solving.hh: Bound, Variable, TrailOffset, Objective, Solver", "libclingo-lpx/src/solving.cc: Solver::prepare, Solver::solve"]}
{"id": "C76", "title": "The printed text is a solution", "statement": "The text the application prints for a model can be read in one way only, and the values in it solve the program: whoever reads the values of the variables from the line of the assignment gets numbers that satisfy every `&sum`, `&diff` and `&dom` atom that is true in the model, as written in the program, whatever values are assumed for variables not printed. If the line of the objective says bounded, the printed assignment attains the printed value and no solution of the true atoms has a larger one; if it says unbounded, there are solutions with arbitrarily large values; if there is no such line, the objective is zero for all solutions.", "quantifier": "all programs, all solving steps, all histories of callbacks, all models, all shown atoms, all orders of the theory symbols", "why_tests_cant": "A test compares the text for a few programs with expected text; that reading any text gives a solution depends on the parser, the solver, the printer of numbers and symbols and the output for all programs at once.", "anchors": ["app/src/main.cc: App::print_model", "libclingo-lpx/src/clingo-lpx.cc: clingolpx_on_model", "libclingo-lpx/src/solving.cc: Propagator::on_model", "libclingo-lpx/src/parsing.cc: evaluate_theory"]}
{"id": "C77", "title": "The theory never requires a constraint to be true", "statement": "Every clause a thread adds during initialization, propagation or checking either consists of the literal of a new objective cut, or is not empty and consists only of negations of the literals of constraints and of objective cuts of that thread. Consequently, an assignment with fewer true constraints than one that satisfies all clauses satisfies them too, and without a global objective an assignment in which no constraint is true is never ruled out: the theory rules out combinations of constraints and never makes one true.", "quantifier": "all programs, all options, all numbers of threads, all histories of callbacks (including those affected by the bug of C06) that are not past a rejected program, all total assignments", "why_tests_cant": "A wrong sign, or the literal of a bound that is not there, in one of the clauses shows only for particular tableaux and makes clingo miss stable models without any error; all clauses of all histories have to be considered.", "anchors": ["libclingo-lpx/src/solving.cc: Solver::update_bound_, Solver::select_, Solver::propagate_, Solver::prepare, Solver::assert_bound_"]}
{"id": "C78", "title": "The order of atoms, elements and solving steps does not matter", "statement": "Passing the same theory atoms in another order, with the elements of each atom in another order, split over solving steps in another way, with other numbers for the solver literals, or with the other number library, does not change the program: the atoms of a step are accepted in one order iff in the other (except for an overflow of the number of auxiliary variables), the same values of the user's variables satisfy the constraints handed to the solver, with the same objective value, for every truth assignment, and the runs agree for every total assignment on whether the objective is bounded and on the optimum reported.", "quantifier": "all programs and all reorderings of them, all splits into solving steps, all truth assignments, all valuations, all runs", "why_tests_cant": "clingo does not specify the order of theory atoms and elements; auxiliary variables are numbered and coefficients are collected in that order, so a dependency on it would show only for particular groundings.", "anchors": ["libclingo-lpx/src/parsing.cc: evaluate_theory, simplify", "libclingo-lpx/src/solving.cc: Propagator::init, Solver::optimize"]}
{"id": "C79", "title": "Atoms of other theories are ignored", "statement": "Theory atoms whose name is not sum, diff, dom, minimize or maximize (without arguments) have no effect, whatever their elements, guards and literals are: initialization gives the same result, the same state of all threads, the same watches and clauses and the same errors as without them.", "quantifier": "all programs, all atoms of other theories at all positions, all earlier solving steps, accepted and rejected programs", "why_tests_cant": "A program combines the theory with arbitrary other theories; a test can only show a few of their atoms at a few positions.", "anchors": ["libclingo-lpx/src/parsing.cc: evaluate_theory, match", "libclingo-lpx/src/solving.cc: Propagator::init"]}
{"id": "C80", "title": "More true constraints never improve the result", "statement": "If all constraints that hold in one run also hold in another one (whatever literals stand for them, in whatever order their summands and the constraints are given, with or without repetitions and further constraints), then a conflict in the first run is a conflict in the second one, and the optimum of the objective reported by the second run is at most the one reported by the first, in particular bounded if that one is. In strict mode this includes the infinitesimal part. The values of the objective for solutions of the true constraints are those up to the reported optimum, which is attained.", "quantifier": "all pairs of programs, histories, options, threads and assignments such that the true constraints of one are among those of the other", "why_tests_cant": "It relates the results of two different runs of the simplex algorithm, with different pivots, for all pairs of constraint sets.", "anchors": ["libclingo-lpx/src/solving.cc: Solver::solve, Solver::optimize, Propagator::check, Propagator::propagate", "libclingo-lpx/src/clingo-lpx.cc: clingolpx_assignment_has_value"]}
{"id": "C81", "title": "The assignment only changes if it has to", "statement": "Every solving step starts with the value 0 for all variables. If the values that are currently shown for a thread satisfy all constraints (and all bounds on the objective) of the literals passed to propagate, then propagate keeps the value of every variable; without bound propagation it also succeeds without adding a clause. check keeps all values as long as the assignment is partial or there is no active objective, unless constraints that are facts have to be added first.", "quantifier": "all programs, histories, options, threads, assignments and sets of literals", "why_tests_cant": "A test shows that values stay the same in one run; here no pivot may happen for any dense or sparse tableau, any variable order and any history of backtracking.", "anchors": ["libclingo-lpx/src/solving.cc: Solver::solve, Solver::update_bound_, Solver::check_, Solver::check, Propagator::propagate, Propagator::check", "libclingo-lpx/src/clingo-lpx.cc: clingolpx_assignment_get_value"]}
{"id": "C82", "title": "The results depend only on the set of solutions", "statement": "Two formulations of the same problem give the same results: if for every rational solution of the true constraints in one run there is a solution in the other one with the same value of the objective and vice versa (constraints may be scaled, implied constraints added, variables renamed, substituted or introduced), then both runs agree on whether the constraints are consistent, on whether the objective is bounded, and on the position of the reported optimum among the rational numbers, that is, on its value and on the sign of its infinitesimal part. If it holds in one direction only, the results can only get worse in that direction.", "quantifier": "all pairs of programs, histories, options, number types (with or without --strict), threads and assignments with the same solutions", "why_tests_cant": "It relates two runs on different tableaux, for all pairs of equivalent systems of constraints; tests compare a few pairs.", "anchors": ["libclingo-lpx/src/solving.cc: Solver::prepare, Solver::solve, Solver::optimize, Propagator::check, Propagator::propagate", "libclingo-lpx/src/clingo-lpx.cc: clingolpx_assignment_has_value, clingolpx_assignment_get_value"]}
