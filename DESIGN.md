# Formal model of clingo-lpx in Lean 4

`properties.jsonl` lists the properties, `MANIFEST.json` the theorems proved for each. This file says what is modelled, how each
property is proved, what is trusted, and which properties the code violates.

## 1. Trusted base

* Lean's kernel (version 4.33.0), and the statements and definitions a reader has to look at: the model (section 2), the
  specifications named in section 4, and the theorem statements in the `Props*.lean` files.
* Axioms: every theorem named in the manifest depends on at most `propext`, `Classical.choice` and `Quot.sound` (checked with
  `#print axioms`). No axiom is added. No compiled code is trusted (no `native_decide`, no `bv_decide`); concrete histories are evaluated with
  `decide +kernel`, that is by the kernel.
* The correspondence between the C++ code and the model is by reading: every definition of the model cites the lines it models.

## 2. What is modelled

| module | content | source |
| --- | --- | --- |
| `Num` | `RationalQ` (arithmetic, comparison), the class of values `V` of the template | number.hh |
| `Number` | classes `Integer` and `Rational`, all overloads | number_flint.hh, number_imath.hh |
| `NumberQ` | class `RationalQ`, all overloads | number.hh |
| `Problem` | relations, terms, inequalities | problem.hh, problem.cc |
| `Tableau` | sparse integer tableau with row denominators: `set`, `get`, `update_row`, `update_col`, `pivot`, `simplify`, lazy deletion in columns | tableau.hh, tableau.cc |
| `Solver` | `Solver<Value>`: bounds, trails, `update*`, `set_value`, `enqueue_`, `select_`, `pivot_`, `solve`, `propagate_`, `undo`, `store_sat_assignment`, `optimize`, `assert_bound_`, `discard_bounded`, `adjust`, `get_objective` | solving.hh, solving.cc |
| `Prepare` | `Solver::prepare` (rows, bounds, constants, conflict clauses, objective row) | solving.cc:67-147, 278-400 |
| `Parsing` | theory terms to linear terms, numbers in strings, `simplify`, atoms, conditional elements, objective, `evaluate_theory` | parsing.cc, problem.cc |
| `Sys` | `ObjectiveState`, `Propagator<Value>` (`init`, `propagate`, `check`, `undo`, `decide`, `on_model`, `on_statistics`), the facade (`lookup_symbol`, `get_symbol`, `has_value`, `get_value`, `next`, `extend_model`) | solving.cc:22-66, 619-663, 1046-1197, clingo-lpx.cc:127-203 |
| `Theory` | `THEORY`, `THEORY_Q`; clingo's check of atoms and operator precedence parser (environment) | parsing.hh:7-55 |
| `App` | `extend_model`, `App::print_model`; clingo's printing of symbols (environment) | clingo-lpx.cc:171-191, app/src/main.cc:68-107 |
| `Api` | `iequals*`, `parse_*`, `clingolpx_configure`, `clingolpx_register_options`, `clingolpx_validate_options` | clingo-lpx.cc:201-436 |
| `Data` | printing of integers, rationals and `RationalQ`; `safe_cast` | number*.hh, util.hh |
| `Asserts` | `assert`, `assert_extra`, `check_tableau_`, `check_basic_`, `check_non_basic_`, `check_solution_` | solving.cc, tableau.cc, util.hh |
| `Locks` | `ObjectiveState` access by access, `std::shared_mutex` (environment) | solving.hh:53-69, solving.cc:34-65 |
| `Conc` | overlapping callbacks: `propagate`, `check` and `on_model` as sequences of steps, the shared objective, the buffer of `facts_` | solving.cc:1111-1169 |
| `SysSpec` | histories of callbacks (`Reach`), clingo's protocol, the restrictions `Intact` and `SafeEqs` | - (environment) |

Proof modules: `TableauLemmas` (representation invariant and matrix semantics), `Bland`/`BlandOpt` (termination of Bland's rule on
abstract linear systems), `SolverMain` (simplex invariants, `solve`, `undo`), `SolverOptMain` (`optimize`), `WeakSolve` (invariants that survive
Finding 1), `PrepareSpec`/`PrepareMain`, `Sem` (from values with epsilon to rational solutions), `Decimal`, `ParsingMain`, `CondConst`, `SysSafe`,
`SysInv`, `SysCheck`, `Intact` (from `SafeEqs` to `Intact`), `SysMain`, `SysReach`, `SysSem`, `SysCalls`, `SysStat`, `SysWeak` (invariants of the propagator), `OptCycle`
(a periodic run of `optimize`), `ConcMain` (overlapping callbacks against atomic ones), `Witness`/`Examples` (an interpreter of scripts of callbacks, whose results are proved to be reachable, and
small programs). The property theorems are in `PropsParsing`, `PropsData`, `PropsPrepare`, `PropsSolving`, `PropsAny`, `PropsLimits`,
`PropsSession`, `PropsOptions`, `PropsEnd`, `PropsUnmixed`, `PropsGlobal`, `PropsAgree`, `PropsTheory`, `PropsApp`, `PropsAsserts`, `PropsStop`, `PropsExact`, `PropsConc`, `PropsAccept`, `PropsNumber`, `PropsBackend`, `PropsReadback`, `PropsHandle`, `PropsExactly`, `PropsStats`, `PropsUnit`, `PropsProgress`, `PropsViolations`, `PropsViolations2`; below each there is an example that meets its hypotheses.

### Modelling decisions and simplifications

* **Numbers.** Arbitrary precision integers and rationals are `Int` and `Rat`; the functions of FLINT and IMath are trusted to do what their
  documentation says. `Number` models the classes wrapping them on a memory with addresses and C58 proves that they compute what `Int` and `Rat` do. The template
  parameter `Value` is a type `V` in a class of ordered `Rat`-vector spaces with an epsilon; the instances are `Rat` (epsilon = 0) and `RatQ`, which
  follows number.hh and is *proved* to be an instance (C17).
* **Memory.** Vectors with index access are functions plus a size or lists; pointers to bounds are positions in the append-only list of bounds
  (so pointer identity is preserved). Operations with undefined behaviour (missing bound, `back()` of an empty vector, missing
  tableau entry, division by zero, index out of range, an exception that cannot be handled) set a sticky flag `ub` and continue with an
  arbitrary value; C39 is about this flag. Machine integers for indices and levels do not overflow in the model; C75 shows that the numbers kept fit into 32 bits.
* **Loops.** `while (true)` loops take fuel and return `none` when it runs out. Theorems about results hold for every fuel that
  suffices; termination (C04, C11) is the theorem that an explicitly given fuel (`12 ^ n + 1`, `n` the number of unknowns) suffices.
* **Containers.** The multimap `bounds_` from literals to bounds is a `std::unordered_multimap`, whose iteration order the standard leaves open. The model
  keeps the bounds in insertion order and visits them in the order given by an arbitrary permutation (`Order`, a field of `InitEnv` and of each solver), so every
  theorem holds for every such order. The priority queue `conflicts_` is a list with its minimum first; only the minimum is observable.
  `var_map_` and `aux_map_` are association lists; the code only looks them up.
* **clingo** is the environment. Its view is a record `Ctl`: decision level, level of literals, which literals are false, the answer to each
  `add_clause`/`propagate` (an arbitrary function of the clauses added so far), new literals. The protocol assumed is written down in `SysSpec.lean`: literals are
  propagated on the current level, which is their level; levels are undone topmost first, level 0 never; after a rejected
  clause or conflict the next callback of the thread is `undo`; literals false during `init` do not become true in the same
  step; facts of earlier steps stay true; new literals are new. `ctl.propagate()` inside a callback does not re-enter the same propagator.
* **Threads.** In `Reach` callbacks are atomic and interleave arbitrarily. `Conc` drops this assumption: callbacks consist of steps that are local to
  the thread or access shared data once (`ObjectiveState` is protected by a lock, so its methods are one step, which C72 justifies). C54 proves that the same states are
  reached. The exception is the vector `facts_`, which thread 0 extends without a lock while other threads read the prefix of earlier steps (Finding 7, C55);
  C54 assumes that no freed buffer was used. Torn or reordered memory accesses are not modelled.
* **Solving steps.** Condition literals and theory atoms are passed again to `init`, the mapper to solver literals is arbitrary in each step.
  A program that is rejected by `evaluate_theory` is a step (`Step.fail`): the constraints and the objective read before the exception stay (`ParsingLeft`), the solvers keep the state of
  the previous step, and no thread runs (`g.failed`) until another `init` succeeds. After an abort (division by zero with FLINT) there is no step. Literals of cuts propagated on level 0 in thread 0 would also end up in `facts_`; the
  model includes this.
* **Strings.** `char const*` is a list of characters without a terminator. The reader of numbers in `parse_objective` is a
  parameter `rd`. `safe_cast` is modelled for integer types given by signedness and width.

### Validation of the model

The code cannot be run here. `Conformance` replays all unit tests of the project (libclingo-lpx/tests: parsing, tableau, number, and solving including
strict, multi-shot, optimisation and global optimisation with the knapsack program) on the model, with a simple search in the place of clingo;
all results are the expected ones. These are tests, evaluated by the kernel, and part of no claim.

### Not modelled

The command line application (app/src) except for the printing of models; clingo's grounding; the code of FLINT and IMath; the C wrappers that translate exceptions to error codes (except for the return values in `Handle`); `debug_`; gringo's lexer (the escape sequences in strings are those clingo writes, see C57 and C71); the
assertion in solving.cc:705 (holds by construction of the model); the Python module except for the printing of models; wall-clock
time and memory.

## 3. Findings: properties the code violates

For each there is a theorem that proves the negation of the property on a concrete reachable history (`*_violation`), and a `_partial` theorem for the
inputs outside the defect.

1. **Equality bounds are not restored** (C06; also C01, C02, C03, C05, C07-C12, C29, C39, C42, C44, C46-C48, C64-C67). `Variable::update` for `x = v` calls
   `update_upper` and then `update_lower`; `update_lower` (solving.cc:196-198) finds that the last trail entry may be of this variable, marks it
   `Equal` and stores no second pointer; `undo` (solving.cc:827-843) then sets *both* bounds to the old upper bound. If the variable had a lower bound, it is
   lost or replaced; the entry marked may even belong to another variable. Afterwards, wrong answers, wrong clauses, undefined behaviour
   and an infinite loop in `optimize` are reachable (all proved). The `_partial` theorems hold for all histories in which each `undo` so far left the
   right limits (`Intact`: every limit in force is stated by a true constraint over the variable and no true one states a tighter limit), whatever is propagated; so the
   defect is excluded only once it has shown. `C06` itself, and the comparison of limits after `undo`, is for `SafeEqs`, a condition on the literals propagated alone, which implies
   `Intact` (`C06_harmless_equations_partial`): an equation over a single variable becomes true on level 0, or it satisfies no true inequality over this variable alone with slack, or a constraint over this variable alone
   that it does not satisfy with slack was already true. C45
   gives a condition on the program alone under which no history is excluded.
2. **Constraints without variables use inverted tests** (C20; hence C02, C44): `prepare` (solving.cc:294-330) adds the clause
   `{-lit}` for true ones such as `0 <= 5` and accepts false ones such as `0 >= 5`.
3. **Conditional constants** (C25, C26): parsing.cc:366-392 replaces all terms of conditional elements by auxiliary variables, including
   constants; their symbol becomes a free variable `c` of the linear program. `&sum{ 3 : a } >= 5` then means `3*c >= 5` if `a` is true, and
   `&maximize{ 3 : a }` is accepted and unbounded. `C25_exact` (`CondConst`) gives the exact meaning for all programs.
4. **`clingolpx_configure`** (C35): key `objective` passes `std::optional<RationalQ>*` to `parse_bool` (clingo-lpx.cc:386), key
   `propagate-bounds` passes a pointer to a member where `Options*` is expected (line 392); both are undefined behaviour. The error message for
   `store` names `select`.
5. **Step statistics** (C38) are overwritten by each thread; the last one wins. Accumulated values are right.
6. **Division by zero** (C43) in nested terms is only checked for the outermost divisor; the arithmetic library gets the zero divisor (with FLINT the
   program aborts).
7. **Data race on `facts_`** (C55): in `check` on level 0 a thread passes a pointer into the vector to `solve` (solving.cc:1128) while thread 0 may
   extend the vector in `propagate` (solving.cc:1159) without a lock. If the buffer is reallocated, the pointer dangles. Needs two threads and facts of an
   earlier solving step.

8. **FLINT's `compare(Integer, Integer)`** (C58) passes the raw word of the second number to `fmpz_cmp_si` (number_flint.hh:419), which is the value only if
   it is below 2^62; otherwise it is an encoded pointer, so `0 < -2^70` is true. No caller in the repository compares two `Integer`s.
9. **Rejected programs leave constraints behind** (C74). `init` calls `evaluate_theory` with the members `iqs_`, `aux_map_` and `objective_` and these are filled in
   place. If an atom is rejected, atoms before it, the upper bound of a rejected `&dom` (parsing.cc adds it before the lower bound is read) and the objective remain. The next program may
   become unsatisfiable, be optimised with a foreign objective, or be rejected (because of a constant in the objective), although it is correct. Only applications that catch the
   exception and go on are affected.

Other observations (not refuted properties): `parse_objective` lets an exception pass through a C callback; `iqs_` and `objective_` accumulate across `init` calls.

## 4. Properties: specification and proof

"Histories" are elements of `Reach`: every order and interleaving of callbacks allowed by the protocol, every answer of clingo, every number of threads and
steps, every program. `Solves iqs true g` says that the rational assignment `g` satisfies the constraints whose literals are true
(`PrepareSpec`); `Small P` says that `P` holds for all small enough positive rationals in place of epsilon.

* C01, C03, C05, C07 (`PropsSolving`): invariant `SysInv` of all reachable states, by induction over callbacks; the invariant of the
  solver (`SInv`) says that the tableau's equations are equivalent to the original ones, non-basic variables respect their limits, the
  queue contains all violated rows, trails restore older states. C05 is stated as an equivalence with satisfiability over the rationals.
* C02, C12, C13: Farkas argument on a row: the negated clause together with the row equation is contradictory.
* C04: Bland's rule. `Bland` proves on abstract dictionaries that an infinite run is impossible (largest fickle variable); `SolverMain` shows that the
  code's runs are such runs. For arbitrary histories, also after Finding 1 (`WeakSolve`). No configuration (which variables are basic, at
  which limit each one sits) repeats, so there are at most `12 ^ n` pivots (`Steps`, `C04_pivots`).
* C06 (`PropsLimits`, `PropsExact`): the limits are the tightest ones stated by active constraints; refuted in general. `C06_restored_iff`: the
  restriction is exact for levels entered with one single-variable equation (restored if and only if the equation is harmless).
* C08-C10: loop invariant of `optimize`; optimality from the signs of the objective row, unboundedness by an improving ray, translated to rational
  assignments arbitrarily far.
* C11: Bland for the primal phase plus finiteness of the set of bases (at most `6 ^ n` steps of `optimize`); refuted after Finding 1 by a run of six pivots that repeats.
* C14-C16 (`PropsData`): the tableau of every sequence of operations represents the matrix obtained by the textbook operations.
* C17, C18, C19: algebra; C18 relates strict constraints to epsilon both ways.
* C20: refuted, proved for equations and right-hand side 0.
* C21-C27, C43 (`PropsParsing`): relational semantics of terms (`Denotes`), accepted iff linear, atoms mean the inequality of the README.
* C28 (`PropsSession`): all interleavings of reports and reads of the shared objective; C29: cuts come from reported values, and are enforced.
* C30-C34: maps and heuristics, arbitrary histories. C35-C37 (`PropsOptions`): all strings.
* C38: sums over steps and threads (`PropsSession`); counters start at zero in each step, and the clauses added by a thread are its propagated bounds, cuts and conflicts (`Counters`, `PropsStats`); refuted for step values. C39, C42 (`PropsLimits`): flag `ub` never set; other threads' observations unchanged.
* C40, C41 (`PropsData`): safe casts; printing is injective; `PropsPrint`: the printed text is the usual decimal/fraction notation.
* C44 (`PropsEnd`): from theory atoms (relational specification of the README) to the values of a model, end to end; the composition of
  the parser, `prepare` and solver theorems.
* C45 (`PropsUnmixed`): the unrestricted versions of C01, C02, C05, C07, C09-C11, C39, C44 for programs in which no equation over a
  single variable satisfies an inequality over the same variable alone with slack (`x = 0` and `x >= 0` is fine, `x = 3` and `x <= 5` is not).
* C46 (`PropsGlobal`): an accepted assignment carries the limit of the newest shared objective (invariant over histories `Informed`); composed with
  the cut theorems of C29, the clause theorem C02 and C09/C10 this gives progress, no loss and optimality at exhaustion of branch and bound.
* C49 (`PropsTheory`): case analysis over the atom definitions and over everything the parser adds; C50: the shift-reduce parser is compared with the
  conventional grammar `Reads` by induction over derivations (completeness) and over the input (existence of a reading). The identity functions
  `clingolpx_rewrite_ast` and `clingolpx_prepare` leave the program as it is.
* C51 (`PropsApp`): list reasoning, on top of C31 and C32.
* C52 (`Asserts`, `AssertsMain`, `AssertsInit`, `AssertsSys`, `PropsAsserts`): shadow functions walk through the code and collect the assertions evaluated.
  Debug assertions follow from the invariant for arbitrary histories (`WInv`); the crosschecks are characterised (`checkSolution_iff` etc.) and follow from
  `SInv`, `Core` and an invariant about the queue of violated basic variables (`QR`) that holds in the middle of a `solve`. The unrestricted crosscheck
  statement is refuted (Finding 1).
* C53 (`Quiet`, `PropsStop`): function by function, for arbitrary states; which functions leave the clauses alone (`Quiet`) and how accepted
  clauses are chained (`Stops`).
* C54 (`Conc`, `ConcMain`, `PropsConc`): forward simulation (`Sim`). `propagate` takes effect when `facts_` has been extended, `check` when the shared
  objective is read, a report of a model when the objective is updated; what other threads do in between does not matter (`TR.frame`). If `check` never
  ends in some thread, it does not end in an atomic run either (`Hangs`).
* C55 (`PropsConc`): refuted for every policy for growing vectors that at most doubles; proved for one thread and for runs without facts of earlier steps
  (`NoRace`).
* C56 (`PropsAccept`): `WellFormed` lists the shapes of the atoms; induction over the atoms, with `parseSum_accepts_iff` (C22) for terms and the value
  of the objective at zero (`ConstPart`) for the test of the constant.
* C57 (`PropsAccept`): `unquote` inverts gringo's `quote`, by induction over the string.
* C58 (`PropsNumber`): `IntAt`, `RatAt` (value and lowest terms), `Unchanged` (frame) and the lists `ExactIntegers`, `ExactRationals`, `ComparesIntegers` are the
  specification; each overload is executed symbolically on an arbitrary memory.
* C59 (`PropsBackend`): the results of every function of the parser are related by `SameResult`, by induction over terms, elements and atoms; `Reach` does
  not depend on the back end otherwise.
* C60 (`PropsReadback`): unique parsing of the printed text: names, numbers and escaped strings end at delimiters, lines end at line breaks; with C51 the
  output is a list of lines.
* C02, C05 exactly (`PropsExactly`): the invariants of the solver are stated for values in the ordered vector space `V`, so the conflict certificate excludes
  all solutions in `V`; strict constraints are read with a margin.
* C63 (`App`, `PropsApp`): induction over the theory symbols.
* C82 (`PropsSolutions`): from C05, C09, C10 and C01: the reported optimum is the least upper bound over the rational solutions, and its infinitesimal part tells whether it is attained.
* C81 (`Idle`, `PropsIdle`): if all new bounds hold under the current values, then `update_bound_` moves no variable and queues nothing violated, and so the loop ends in its first round; the bounds are those of the constraints by the invariant behind C01.
* C80 (`PropsMore`): the reported optimum is the maximum over all valuations with values in V that satisfy the true constraints (from the invariant behind C09 and C10), and a valuation satisfying more constraints satisfies fewer.
* C79 (`PropsForeign`): induction over the list of atoms; an atom that matches no name leaves the data unchanged.
* C78 (`PropsOrder`): by C25 the constraints mean what the atoms say (with the factor of Finding 3), and this reading is invariant: sums of permuted lists agree. Acceptance follows from C56, optima from C44 (with `--strict` the suprema), for plain programs from C45 without a restriction of the histories.
* C77 (`Literals`, `PropsMonotone`): as for the counters (C38), each function of the solver is shown to add only clauses of negated literals of bounds, without any invariant; a dereferenced bound exists where it is compared. The clauses of `prepare` come from its specification (C13), those of cuts from the lemmas for C38. An induction over the history combines them.
* C76 (`PropsOutput`): a reading of a text (`ReadsAs`) is a list of shown symbols, entries and an objective that prints as the text; it is unique by the lemmas for C60 and the one given by C51. The values read agree with the internal ones on all variables of the user in constraints and in the objective; those of auxiliary variables are kept; then C25 and C26 are applied to the mixture.
* C75 (`PropsIndex`): from the invariants for C73, with the variables on the bound trail being those of bounds, the levels saved on the assignment trail being 0 or levels of frames. Specification: `toIndex n = n` for every member of type `index_t` (`Fits`). The offsets into the assignment trail are the critical ones: with 2^16 variables changed on 2^16 levels they would be truncated.
* C74 (`ParsingLeft`, `PropsFail`): specification `Tried acc rej p` (the data `p` after accepted and rejected programs in any order). By induction, with `LeftBy` (what `evaluate_theory` has done when it throws: a prefix of the atoms, auxiliary definitions of the atom that is rejected, or half of a `&dom`), the constraints are equivalent to the atoms kept. Sessions with rejected programs are histories: `Step.fail` is a step of `Reach`.
* C73 (`QueueDef`, `Memory`, `PropsMemory`): the invariants of the assignment trail (one entry per variable and level), the bound trail (two entries per asserted bound), the queue (no duplicates, the flags of the rows agree with it) and the columns (sorted, within the rows), for arbitrary histories, also those affected by Finding 1. `assertedBounds` counts pairs of a literal on the trail and a bound with it.
* C72 (`Locks`, `PropsLocks`): the methods of `ObjectiveState` as sequences of single accesses to its members, with the mutex as part of the state and an assignment to `value_` during which arbitrary values are in memory. A simulation relates it to a specification with atomic calls, in both directions, so the sequences of calls and returns are the same.
* C71 (`Debug`, `PropsAsserts`): every function of the solver with its assertions inline, in a monad that stops at the first failing assertion. For each function an equation shows that it computes what the function without assertions computes if the assertions collected by the shadow functions of C52 hold, and aborts otherwise; together with C52 a debug build equals a release build in all reachable states. The equations also show that the shadow functions of C52 collect exactly the assertions of the code as transcribed in `Debug`.
* C70 (`NumberQ`, `PropsNumberQ`): the class `RationalQ` on the memory of `Number`, for any classes that meet the requirements of C58 (`ExactRationals`). Requirements as a structure `ExactRationalQs` with explicit components, proved from `ExactRationals` by sequencing (`pair_new`, `pair_assign`); the alias `as_rational()` needs that there is no epsilon component.
* C69 (`TableauLow`, `Cramer`, `PropsNumbers`): rows are in lowest terms (`Low`, part of the structural invariant: `simplify_` divides by the gcd, `set` keeps it because the denominators are combined by their lcm). The tableau is equivalent to the integer equations of the program (`TWeak.rows`, `Setup.ext`), hence by Cramer's rule its entries are quotients of determinants of size m with a common denominator, and a row in lowest terms cannot be larger than any other representation (`Low.bound`).
* C68 (`Complete`, `Queue`, `PropsComplete`): if the limits of the non-basic unknowns exclude a bound on the basic unknown of a row, then the sum of the extreme contributions (`propRow`) does, by evaluating the row at the extreme point. For `changed`: the flags of the propagation queue are cleared between calls (`PF`, an invariant of all histories), every row whose basic unknown, value or equation changes in `update`/`pivot` is enqueued (`Grow`, `Unch`), and rows are only re-solved by `pivot`, which enqueues all rows with the entering unknown.
* C67 (`PropsReasons`): the invariant about clauses (`ClauseValid`) carries the set of bounds that explains the clause. Irreducibility: all non-basic variables of a conflicting row sit at their bounds, so the current point satisfies all bounds but the one of the row, and since the non-basic variables can be chosen freely (`exists_row`) the row can be moved to its bound by changing one of them; bounds on the same variable are satisfiable one by one.
* C66 (`PropsSearch`): exact form of C02 (`SysInv.clauseDecided`) for own clauses with the literals of cuts made true and for clauses of other threads without literals of cuts; values of cuts by C29.
* C65 (`PropsProgress`): the objective improves by the step (C46), and is a function of the set of true constraints (C47); pigeonhole.
* C64 (`SolverProp`, `PropsUnit`): the bounds named in propagated clauses are those of the bound pointers, which belong to true literals (`PtrAct`).
* C61 (`Handle`, `PropsHandle`): induction over the sequence of calls; `Sets` specifies the effect of a call by the tables of documented words. C62: case
  analysis, refuted for the key `store`.
* C47, C48 (`PropsAgree`): points satisfying the bounds of one solver are transferred to another one (`transfer`), so optima agree; C48 compares
  the theorems C01, C05, C09, C10 for both value types.

## 5. Why some claims are partial

C01-C03, C05, C07-C12, C29, C39, C42, C44, C46-C48, C52, C64-C67, C76, C78, C80-C82: `Intact`, C06: `SafeEqs` (Finding 1) - the full statement is false of the code. C20, C25, C26, C35, C38, C43, C55, C58, C62, C74: false of the
code (Findings 2-9, C62: Finding 4). In each case the violation theorem is listed in the manifest next to the partial one. Strict relations over
`Rational` are excluded (`Supports`): the code asserts that they do not occur without `--strict`.

## 6. Mutation tests

`seeded/LOG.jsonl`: each line is a realistic bug seeded into the model in a scratch copy, the claim it breaks and the theorems that failed to
build. Survivors led to stronger theorems, named in the field `tightened`.
