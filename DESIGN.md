# Formal model of snowberryfield/printemps in Lean 4

The sources in `/repo/printemps` are C++ header templates. Everything below is about the
instantiation the program ships: `T_Variable = int`, `T_Expression = double` (`IPModel`, `IPSolver`).

## 1. Trusted base

* Lean 4.33.0's kernel, and the axioms `propext`, `Classical.choice`, `Quot.sound`
  (Lean/Mathlib's standard ones). No axiom is added; no `sorry`, `native_decide`, `bv_decide`.
* The reading of the C++ text into Lean definitions. Each definition cites the file and lines it models.
* Numbers. `double` is modelled by exact rationals `ℚ` (`HUGE_VALF` by a top element / `none`), `int` by `ℤ`.
  Rounding is modelled only in `Model/Rounded` (C65); overflow, NaN and signed zeros are *not* modelled. Tolerances (`EPSILON = 1e-5`, `EPSILON_10 = 1e-10`)
  are kept as the exact rationals they denote, so the effects of tolerances are visible in the theorems.
* Containers. `std::unordered_map` is modelled by an association list with distinct keys in an arbitrary order;
  theorems quantify over all lists, hence over all iteration orders. Pointers are modelled by natural numbers.
* Parallelism: OpenMP loops in the modelled code write disjoint slots; they are modelled as sequential loops.
* Random numbers are modelled as arbitrary values supplied from outside.

Not modelled: text output/logging, wall-clock time (an arbitrary oracle where it matters), option parsing,
the numerical convergence of PDLP, tabu-search controller heuristics beyond what is listed.

## 2. Layout

* `lean/Verif/Spec/*.lean`    — small specifications that do not depend on the model's helper functions.
* `lean/Verif/Model/*.lean`   — the model, function by function, with citations.
* `lean/Verif/Lemmas/*.lean`  — helper lemmas.
* `lean/Verif/Props/*.lean`   — the property theorems (one namespace per property), each with an `example`
  instantiating its hypotheses on a non-trivial case, and (where the code violates the English property)
  a counterexample theorem plus a `_partial` theorem.

Shapes used: (A) algebraic/round trip, (I) invariant by induction over operations, (R) refinement to a spec,
(D) decision logic.

## 3. Plan per property

| id | modelled | how |
|----|----------|-----|
| C01 | `Expression` as association list + constant and its operators | A: `eval` is a homomorphism; `Nodup` keys preserved |
| C02 | constraint operators, `Constraint::update` | D: case analysis on sense and side kinds |
| C03 | `lower_bound/upper_bound` | induction on the term list; witness assignment |
| C04 | `Expression::evaluate(move)` with the fixed sensitivities | A: induction on alterations (distinct variables); counterexample for a repeated variable |
| C05 | `Constraint::update()`, `update(move)` | D |
| C06 | `Model::evaluate(score*, move)`, `update(move)` | R: equals the score of the moved state recomputed by spec |
| C07 | `evaluate_single`, margin flag | R + soundness lemma of the skip; tolerance explicit |
| C08 | `evaluate_multi` | R with per-constraint tolerance |
| C09 | `evaluate_selection`, index ranges | R |
| C10 | model state machine `update(move)` | I over move sequences |
| C11 | `IncumbentHolder` | I over histories (fold) |
| C12 | `SolutionArchive::push` | I |
| C13 | strides, flat/multi index | A (both round trips) |
| C14 | `indices_label` | injectivity by character argument |
| C15 | `FixedSizeHashMap` with linear probing | I over insertions: probe-path invariant |
| C16 | `UnionFind` | I: parent forest represents the equivalence closure |
| C17 | Kruskal loop of `minimum_spanning_tree` | exchange argument |
| C18–C20 | `BinaryMatrix` | loop invariants `M·A = R` over GF(2) |
| C21–C23 | bound tightening / redundancy / singletons | ordered-field reasoning; counterexamples for C23 |
| C24–C26 | implicit equality, duplicates, set constraints | set equality of feasible assignments |
| C27,C28 | independent / dominated set variables | exchange argument; counterexamples, `_partial` |
| C29 | `solve`, `substitute`, elimination | A + induction over a list of definitions |
| C30,C31 | selection extraction and moves | I |
| C32–C36 | move generators | D; counterexamples for C34 |
| C37 | step-size adjuster with fuel | I over loop iterations, arbitrary score oracle |
| C38 | memory | I |
| C39 | exact penalty | integrality argument |
| C40–C42 | dual bounds | weak duality |
| C43–C45 | MPS section semantics | D; counterexample for RANGES and fractional bounds |
| C46 | JSON printer/tokenizer/parser | A: round trip by mutual induction on documents; for documents outside of the fragment `Spec/JsonEcho` states what is read (`Lemmas/JsonEcho`), and `Lemmas/Scientific` how exact numbers are |
| C47 | CSR product, transpose | A |
| C48 | export/import | A |
| C49 | variable API | I |
| C50 | classification | D |
| C51 | verifier | D/I over proxies |
| C52,C53 | tabu rules | D, I |
| C54 | loops | measure |
| C55 | merged moves | A using C04–C08 |
| C56,C57 | optimality and screening | optimality over assignments |
| C58 | queue | I |
| C59 | result | I using C11 |
| C60 | penalties | I |
| C61 | fixing / unfixing by name | D; counterexample for unfixing |
| C62 | distances | A over association lists |
| C63 | GF(2) solver of preprocessing | model of the numbering, the matrix, the inverse (C18/C19) and the fixings; uniqueness of the solution over GF(2) gives the forced values; feasibility is compared before and after |
| C64 | chain moves | model of `operator+`, overlap rate, hash, comparison, sort order, removal of duplicates and reduction; std::stable_sort is any function with its guarantee; the comparison is shown to be a lexicographic order on regular stores |
| C65 | rounding | second model of the evaluation functions with a rounding after every operation; exactness on a binary grid by induction over the loops and over the history of moves, relative error bound for arbitrary data |
| C66 | whole runs | state machine over arbitrary event lists (start, move, relax, penalties) composed of the models of evaluation, update, incumbents, import and report; invariant by induction over the events, assignments specified separately in `Spec/Search` |
| C67 | preprocessing as a whole | `Model/Setup` composes the stages of `Model::setup` with the lists of constraints computed by the classification; an invariant relating the current model to the initial one carries the theorems of C23-C30 from stage to stage; counterexamples by kernel evaluation |
| C68 | a whole call of the solver | `Model/Whole` joins `Model/Setup`, `Model/Verifier` and `Model/Search`; invariants of the variables and constraints through the stages (`Lemmas/SetupVars`, `Lemmas/Whole`) give the conditions of C66 for the transformed model, and C67 carries the result back to the user's model |
| C69 | the option file | `Model/Option` lists every option with name, key, type and default value and models `read_json`, `setup` and `to_json`; the keys are compared with the names by evaluation, the rest holds for any list of options; the file round trip uses C46 |
| C70 | the command line and its files | `Model/Standalone`: the argument loop, the line readers, the writer of solutions and the stages of `MPSSolver::setup`; every argument list is split into parts; the effect of each file by C48 and C61; the round trip by the lemmas on printed numbers |
| C71 | flippable pairs | `Model/Flippable`: the set of candidates in any order, the two loops, the sort, the writer; membership in the lists of constraints gives the numbers; the reader is that of C70 |
| C72 | arrays | `Model/Proxy`: arrays with the index stored in each element, the loop deciding which elements are covered, the sums and products; `Spec/Proxy` lists the indices of a shape and of a slice without strides; induction over the shape shows that the two agree |
| C73 | names | `Model/Names`: the memory of extensions, the loops of `setup_unique_names`; induction over the arrays; uniqueness from C14 and the position of the first bracket |
| C74 | where moves come from | `Model/Neighborhood`: each generator with its related constraints and its flags, the union, the moves the cores derive (merged, adjusted, chains); `Model/Offered`: runs whose moves come from there; each candidate is legal in the sense of C66 by cases over the generators, chains by induction over their making; the theorems of C66 then need no assumption on moves |
| C75 | no throw | the recorded selected variable and the value 1 stay together along a run (`Lemmas/Hot`); induction over the events; incumbents by the history of offers of C66 |
| C76 | whole call | the pointers to selections after the preparation (`pointers`: nothing before, exactly the chosen ones after), the chosen variables recorded by the verifier (`Lemmas/Chosen`), giving `Fits` and `Good`; then C74, C75 and C68 |
| C77 | online bounding | `Model/Online` on top of the presolve step of C21; the new bounds shrink around every assignment that satisfies the objective constraint (`Lemmas/Online`); the rest are concrete runs |
| C78 | restarts | `Model/Controller`: the decision flags (a table over seven facts, checked by evaluation of all 128 cases inside the theorem), the next start, the loop of tabu searches, Lagrange dual and local search before it; the invariant of `Lemmas/Laps` (every start has values come across before, imports never throw, the incumbents are never missing) feeds C68, C74 and C75 |
| C79 | limits of a call | `Model/Limits` puts the loops of `Model/SearchLoop` (C54) under one clock; the world and all steps are arbitrary; `loop_keeps` carries "no late step counted" through every loop |
| C80 | the LP solver | `Model/Pdlp` computes the iterates of PDLP on the LPs of `Model/LinearProgram`; the step size search ends because the limit is bounded below by a constant of the LP while the candidates shrink at least like a product of `n/(n+1)`; verdicts follow from weak duality (C42) with the residual bounded by the reported norm; square root and powers are parameters with bounds (`Spec/Pdlp`) |
| C81 | rounds of dependent variables | `Model/Setup.dependentLoop` is unrolled round by round under an invariant (`Lemmas/DependentLoop`): extraction and elimination by C29, reduction by comparing the model with one whose dependent variables are set to values within their old bounds; each round makes a variable dependent, so the rounds end; the no-cycle condition is stated along the rounds (`Spec/Rounds`) and discharged for equalities of pairs by counting names |
| C82 | whole call with dependent variables | C81's invariant is extended by what the search needs (flags computed right or harmless, references within the lists, integral data; `Lemmas/WholeDep`), giving the `Setting` of C66 for the launched model; C66's best-visited theorem is then read back through the definitions (`reported_values`, `solves_iff`). Counterexample for exclusive or pairs by evaluation |
| C83 | options of the searches of a call | `Model/Tuning` (state of the controller, `create_option`, `update`) and `Model/Learner` (upper confidence bounds); `Spec/Tuning` says what the options allow; an invariant over the searches (`Lemmas/Tuning`, `Lemmas/Learner`) for arbitrary results of the searches; counterexamples by evaluation or for all calls |
| C84 | what a search reports about itself | `Model/SearchReport` (state of a search over arbitrary visits, its result, stop conditions); `Spec/SearchReport` says what a true report is; the state is a fold over the visits, each part of it is proved by induction over them |
| C85 | files with the values of a solution | `Model/ArrayFile` (the text with brackets, its numbers with six decimals, both documents); `Spec/ArrayFile` says what `array[i][j]…` is; the bracket loop is proved to write the nested arrays of any shape by induction over the dimensions, and the parser of C46 to read them |
| C86 | the file with the problem | `Model/ModelFile` (`write_json`); `Spec/ModelFile` says when an assignment to names satisfies a JSON document; the document is proved equivalent to the model, and reading the file to give the document with respelled names and coefficients in seven digits (`Lemmas/JsonEcho`, `Lemmas/Scientific`) |
| C87 | the file with the feasible solutions of a call | `Model/SolutionFile` (stored solutions, the archive of a call, `write_solutions_json`); `Spec/SolutionFile` says what an entry of the file is; runs of moves by C10, the archive by C12, reading by C46 |
| C88 | programs and the problems they state | `Model/Program` (syntax of programs, statements, the model they build); `Spec/Program` gives programs their mathematical meaning; a representation invariant (`Lemmas/Program`: `Rep`) along the program |
| C89 | from the program to the report | `Spec/Told`; models built by programs are well formed (invariant `Built`), then C88 and C76 |
| C90 | MPS files and the problems they describe | `Model/{Mps,Import}`; `Spec/MpsFile` says what a line, a number, a file is and which problem a file describes; invariants for each section (`Lemmas/{MpsText,MpsFile,MpsImport}`) |
| C91 | from the MPS file to the report | imported models are well formed, then C90 and C76 |
| C92 | from the command line to the solution file | `Model/Command` (options read from the option file, the whole run); fixing variables keeps models well formed (`Refixed`); then C70, C90, C78 and the accuracy of `%.10e` (`Lemmas/Decimal10`) |
| C93 | the status of a call | `Model/Status` (the lists filled by the two setups, read through pointers at the end); counting lemmas by induction, double counting of pairs; what the setup does to the lists (`reduce_shrunk`), what a search leaves alone (C66, C78) |
| C94 | a call during which the bounds of variables shrink | the same plans as C76-C78 with `bounding` on; invariant over laps (`Lemmas/Bounded`, `Lemmas/BoundedLaps`): only the ranges differ from the model prepared, everything at least as good as the best feasible solution is still in them (C77); that the call returns (`Lemmas/BoundedScore`, `Lemmas/BoundedReturns`): local and global incumbents are no worse than their stored values and the global one is as good as the feasible one, so that every start chosen by the mode smart is in the ranges; that moves taken from the neighbourhood respect the bounds of the moment (`Ctl.renew`, `Lemmas/BoundedMoves`): single-variable moves come from generators set up again, special and chain moves check for fixed variables |
| C95 | the tree of the solutions found | `Model/SearchTree` on top of `Model/Graph`, `Model/Archive` and `Model/SearchReport`; invariant over searches: the graph is the complete graph of distances of the first solutions archived, archived solutions get strictly better (C84), so indices stay; minimality from C17, distances from C62; spec of shortest trees in `Spec/SearchTree` |
| C96 | C89, C91 and C92 with bounding switched on, as it is by default | composition of the theorem of C94 with what programs, files and command lines set up (`program_facts`, `file_facts`, `run_facts`) |
| C97 | the tables printed during a search | `Model/Table` on top of `Model/Search`; invariant over prefixes of the history: the current score and the offers describe the assignments met (from C66), the status bits are those of C11 |
| C98 | the statistics exported after a call | `Model/Statistics`: `Model/Memory` run along `Model/Search`; invariant: the counters are counts over the moves of the past, the violated constraints listed by the model are those of the assignment reached (from C66) |
| C99 | the summaries printed between the searches | `Model/Summary` on top of `Model/Statistics`; the counts are those of C98, a list cut off from a sorted list is the list of the first ones; invariant: the current solution is the export of a model whose stored violations, of disabled constraints too, are those of its values |
| C100 | the function called back after each tabu search | `Model/Callback`: the loop of the controller with its four reasons to end, around `lapStep` of `Model/Controller`; the function is an arbitrary function of its memory, the options and the incumbents; induction over the rounds with the invariant `Ok` of `Lemmas/Laps` (without bounding) or `Sound` of `Lemmas/BoundedReturns` (with it), truth of the incumbents from C11, C66 and C68 |
| C101 | the life of a model object: building, naming, solving, initializing | `Model/Life`: the state of `Model/Program` with the lists of names kept apart, the mark "solved", and an arbitrary rest of the call; `Spec/Life` speaks about the list of actions only; induction over the actions from the end, invariant: lists of names and of arrays have the same length |
| C102 | the table of the size of the problem printed after the setup | `Model/SizeTable`: sizes of the lists of the first setup, counts over the lists of the last one; compared with `freeVars` and `usedCons` of `Spec/Status`; sums by induction over the list of constraints, the bounds by C93 |
| C103 | the rows of `trend.txt` | `Model/Trend`: one row after each pass of the loop, read from the incumbent holder of `Model/Search`; specification by the assignments met (C66); global columns by the invariant of C97, local columns by induction over the events since the start of the search |
| C104 | the setup with presolve and selections switched off | `Setup.prepare`, `Whole.started`: all stages collapse to the recomputation of sensitivities; the correction of the initial values by induction over the variables with a reflexive, transitive relation `Corrects` |
| C105 | the normalized gap of PDLP | `Model/Gap` over the sparse matrices of C47; closed form by the adjointness of a matrix and its transpose; specification by complementarity; two refutations on an LP with one row |
| C106 | a whole call without presolve and selections | `Whole.solve` as in C68; composition of C104 (the setup keeps the problem), C51 (values at the start), C07 (stored coefficients) and C66 (the report is the best visited), without the conditions of C68 on integrality and presolve |
| C107 | the restarts of PDLP | `Model/Restart`: counters and gaps of the state, the gaps of the points given; invariant relating the state to the list of restarts; recurrence by contradiction with the artificial threshold; refutation of the reference gap with the default options |
| C108 | PDLP with the restarts its own gaps lead to | `Model/RestartRun`: the iteration of `Model/Pdlp` with the gaps of `Model/Gap` and the decision of `Model/Restart`; refinement: each run is a run of `Model/Pdlp` for the plan read from its log and its decisions are those of `Model/Restart` for the gaps of its log; termination by the invariant of C80 |

Status per property is kept in `MANIFEST.json`; deviations of the code from the English property are listed in section 4.

## 4. Findings (code deviates from the property)

Each entry names the theorem (in the namespace of the property) that exhibits the deviation on a concrete input.

| property | deviation | theorem |
|----------|-----------|---------|
| C01 | assigning from a proxy drops the constant of the expression | `assign_like_drops_constant` |
| C04 | a move that lists a variable twice is evaluated wrongly | `repeated_variable_breaks` |
| C05 | full and incremental update use different tolerances for the margin flag | `margin_flag_differs` |
| C06 | score feasibility sums violations, model feasibility tests each constraint | `score_flag_vs_model_flag` |
| C07 | widening bounds after creating a constraint leaves its 0/1 flag set | `stale_binary_flag_breaks` |
| C12 | the archive can hold equal solutions that are not neighbours | `archive_may_hold_duplicates` |
| C21 | contributions of fixed variables are truncated to `int`; zero coefficients divide by zero | `fractional_fixed_terms_lose_a_solution`, `zero_coefficient_is_undefined` |
| C23 | singleton equalities are truncated, accepted outside the bounds, large bounds are lost | `fractional_equality_is_lost`, `equality_outside_bounds_is_accepted`, `large_bound_is_lost` |
| C26 | a set constraint overwrites a variable already fixed at 1 | `fixed_variable_is_overwritten` |
| C27 | an independent variable is fixed at 0 outside its bounds | `fixed_outside_bounds` |
| C28 | dominated set variables: negative costs lose the optimum; fixed variables are overwritten | `negative_costs_lose_optimum`, `fixed_variable_is_overwritten` |
| C29 | three mutually dependent definitions lose solutions | `cycle_of_three_loses_solutions` |
| C30 | a selection is taken from a constraint whose classification is stale | `selection_of_a_stale_constraint` |
| C31 | a fixed selected variable is not recorded (null pointer later) | `fixed_selected_variable_is_not_recorded` |
| C32 | flips leave the bounds [0,0] and [1,1] of variables that are not fixed | `binary_move_can_leave_bounds` |
| C34 | constant sum / difference / ratio moves violate their constraint | `negative_sum_moves_always_violate`, `difference_moves_can_violate`, `ratio_moves_can_violate` |
| C36 | ratio moves that change nothing; soft selection moves outside the bounds | `ratio_move_can_change_nothing`, `soft_selection_move_can_leave_bounds` |
| C39 | a small initial coefficient is kept although it is not exact | `small_initial_coefficient_not_exact` |
| C41 | disabled constraints take part in the Lagrangian; wrong sense for maximisation | `disabled_constraint_breaks_bound`, `maximisation_bound_wrong` |
| C42 | the objective constant is missing in the reported bound; nonzero residuals invalidate it | `constant_breaks_the_bound`, `small_residual_is_not_enough` |
| C43 | RANGES rows have the wrong sign: every nonzero range makes the row infeasible | `nonzero_range_excludes_everything` |
| C44 | fractional bounds are truncated, `PL` resets the lower bound, `1e30` is undefined behaviour | `record_wrong_otherwise`, `plus_infinity_resets_lower_bound`, `huge_numbers_are_undefined` |
| C45 | writing and reading back changes bounds, coefficients, or is impossible | `nonnegative_becomes_binary`, `free_becomes_binary`, `lower_bound_lost`, `coefficients_rounded`, `unused_variable_unreadable`, `name_unreadable` |
| C46 | JSON text parser, Booleans in arrays, commas in strings, large integers, rounding of reals | `text_parser_wrong`, `boolean_in_array_lost`, `comma_in_string_lost`, `large_integer_throws`, `real_rounded` |
| C47 | unsorted entries and a second `setup()` give a wrong product | `unsorted_entries_break_the_product`, `second_setup_is_broken` |
| C48 | equal names lose values in the sparse form | `equal_names_lose_values` |
| C49 | `set_bound` changes a fixed variable; dependent variables keep stale margin flags | `set_bound_changes_fixed_variable`, `dependent_update_stale_flags` |
| C50 | three-variable classification ignores the constant; flags are stale after substitution | `constant_is_ignored`, `stale_flags_after_substitution` |
| C51 | the verifier ignores bounds [0,0] / [1,1] | `bounds_of_binary_variables_are_ignored`, `correction_ignores_bounds` |
| C52 | variables never changed are tabu under long tenures; tenure −1 divides by zero | `fresh_variables_are_tabu_under_long_tenures`, `negative_tenure_divides_by_zero` |
| C53 | among tabu moves only, the large constant absorbs the scores | `first_tabu_move_is_taken` |
| C54 | the adjusted inner limit can exceed the configured one; zero is absorbing | `adjusted_limit_exceeds_option`, `zero_limit_is_absorbing` |
| C55 | two moves of an unconstrained variable are merged; tolerated violations add up | `unconstrained_variable_counted_twice`, `tolerated_violations_add_up` |
| C56 | OPTIMAL is reported wrongly for maximisation and in screening mode Off | `maximisation_verdict_wrong`, `off_mode_verdict_wrong` |
| C57 | screening mode Intensive (the default) hides improving moves | `intensive_hides_improving_moves` |
| C58 | a queue of size 0 is undefined behaviour on push | `zero_size_push_undefined` |
| C59 | a total violation of exactly 1e-5 is found but reported infeasible | `found_but_reported_infeasible` |
| C60 | the local penalty exceeds the shrunken global one; coefficients can become NaN | `local_can_exceed_shrunken_global`, `coefficient_can_become_nan` |
| C61 | `unfix_variables` fixes every other variable and zeroes all values | `unfixing_overwrites_everything`, `unfix_is_not_inverse` |
| C63 | `gf2_solver.h` ignores the sign of the coefficients of the 0/1 variables when it fixes an auxiliary variable: a solvable model becomes unsolvable | `negative_coefficient_loses_solutions` |
| C63 | `gf2_solver.h` ignores the bounds of 0/1 variables that are bounded to one value but not fixed: an unsolvable model becomes solvable | `bounds_are_ignored` |
| C64 | constraints are sorted by name before neighbouring duplicates are removed: with equal names a combined move lists constraints twice and its fast score counts violations twice | `equal_names_spoil_scores` |
| C64 | the comparison of chain moves compares a hash with itself, cuts address differences down to 32 bits and uses a tolerance: it can run in a circle, which is undefined behaviour of the sort | `far_addresses_unsortable`, `near_rates_unsortable` |
| C65 | values updated move by move are recomputed only when the next inner search starts: with coefficients of very different size the stored value of a violated constraint can become 0 until then | `drift_hides_violation` |
| C67 | default options: replacing a dependent variable can leave a term with coefficient 0 in a constraint; the next tightening of bounds divides by it and converts the result to an integer (undefined behaviour) | `substitution_leads_to_undefined_behaviour` |
| C67 | default options: a 0/1 variable with bounds [1,1] is fixed at 0 by the removal of set variables after its covering constraint was removed as redundant | `bound_of_one_is_overwritten` |
| C67 | a set partitioning constraint disabled by the user removes an enabled one containing it | `disabled_constraint_removes_enabled_one` |
| C69 | the key of `parallel.number_of_threads_move_update` is misspelt (a semicolon inside the string), so the option in a file is silently ignored | `threads_are_ignored`, `file_does_not_decide` |
| C69 | an enumeration given by a value of a wrong type is silently ignored; a number out of range is accepted and makes `to_json` throw | `mode_of_wrong_type_ignored`, `mode_out_of_range_accepted` |
| C70 | a flag without value at the end of the command line is read behind the end of the arguments | `undefined_arguments` |
| C70 | the line `=obj= x` of a solution file is read as a variable, which is undefined for an objective beyond `int` | `large_objective_unreadable` |
| C70 | `-m` together with `-i` throws unless the other variables are 0 in the initial solution; `-m` fixes them at 0 whatever their bounds | `mutable_with_initial_throws`, `mutable_ignores_bounds` |
| C71 | a pair of variables other than 0/1 ones in a pair file gives enabled moves that leave the bounds | `two_flip_leaves_bounds` |
| C72 | assigning an expression to an element of an array of expressions overwrites the index stored in the element: later `sum({k, All})` is empty for `k >= 1` and the total of the whole array for `k = 0` | `assigned_elements_leave_their_slice` |
| C72 | an index out of range is not refused: the sum over it is empty, and `x(0, 4)` of a 2×3 array is `x(1, 1)` | `out_of_range_index_not_refused` |
| C73 | arrays with equal names are accepted, and so are names with brackets; the elements then have equal names | `equal_array_names_accepted`, `bracket_names_collide` |
| C73 | copying an element of an array of expressions to another makes both share one name | `assigned_expressions_share_their_name` |
| C74 | `setup_neighborhood` runs before the GF(2) stage, which fixes variables: they are moved nevertheless, and a call that starts feasible can report values that violate the equations | `Late.variables_fixed_late_are_moved` |
| C75 | local search merges moves without a common *enabled* constraint; two swaps of one selection are such moves if its variables occur in no other constraint: both variables become 1, the values are stored as feasible incumbent with an objective better than the optimum, and the call ends with an exception (default options) | `Doubled.two_swaps_of_one_selection_are_merged` |
| C77 | online bounding compares the objective with the *minimised* value also when maximising (model.h:1681-1686): with a negative best objective it throws from `set_bound` or cuts off every feasible solution including the incumbent | `Maximise.maximisation_throws`, `Maximise.maximisation_loses_everything` |
| C77 | online bounding with one unfixed variable in the objective truncates the fixed part to an integer (expression.h:394-403): the incumbent itself can be cut off | `Fraction.fractional_objective_loses_the_incumbent` |
| C77 | online bounding (on by default) can fix a selection variable at 1 while the other variables of the selection stay changeable; importing a solution then leaves the selected pointer of the last search (verifier.h:168-191 never calls `select`), and the next swap makes a second variable 1: "feasible" incumbent better than the optimum, then an exception | `Broken.bounding_can_break_a_selection` |
| C80 | PDLP compares the dual objective, which contains the contribution of fixed variables, with an upper bound that does not, and then reports INFEASIBLE for a feasible LP | `infeasible_verdict_is_wrong` |
| C80 | The convergence information is computed before the averages are emptied by the start or the first restart, so the average kept with OPTIMAL can be the zero vector, which need not be feasible | `optimal_reports_another_point` |
| C80 | `restart_interval`, `convergence_check_interval` or `log_interval` 0 is a remainder by 0 (tabu search guards its interval with a maximum) | `zero_interval_is_undefined` |
| C42 | With PDLP enabled, a model without enabled constraints and selections is exported before the test that skips such models; the transpose of a matrix without rows takes `*max_element` of an empty vector | `unconstrained_export_is_undefined` |
| C81 | default options: substituting a dependent variable leaves the stored flags of a constraint (only coefficients 1, only 0/1 variables) as they were, so `x0 + x2 + x3 + x4 = 2` with `x0 = 1 - x1` is taken for a set partitioning constraint, replaced by a selection and disabled; the search then accepts assignments violating it as feasible, and the optimum is lost | `wrong_selection_accepts_infeasible` |
| C82 | default options: substituting a dependent variable leaves the stored largest coefficient of a constraint as it was, so a constraint `2 x1 + x2 ≤ 2` is skipped by the fast evaluation when its slack is 1; a violating move is stored as feasible and better, and the call reports an infeasible result although it visited a feasible one | `stale_margin_loses_feasible_solution` |
| C83 | `iteration_max` below `initial_tabu_tenure` (e.g. 5 and the default 10): with the default automatic adjustment the second search is allowed 10 iterations | `iteration_limit_is_exceeded` |
| C83 | with the automatic choice switched off, the number of threads set by the user holds for the first search only; later ones use all threads of the machine | `thread_setting_is_lost` |
| C83 | `seed` and `number_of_initial_modification` of the tabu search options have no effect: search number k uses seed k | `seed_and_number_of_modifications_are_ignored` |
| C84 | the start of a search and the solutions of its initial modification are never stored: the best feasible solution reported may be missing from the stored feasible solutions (`feasible.json`) | `best_solution_is_not_stored` |
| C84 | the reported share of effective moves exceeds 1 with initial modifications, and is 0/0 (NaN) for a search without iterations | `performance_exceeds_one`, `performance_undefined` |
| C85 | `write_json_by_array` writes numbers below half a millionth as zero (a violated constraint is shown with violation 0), and replaces commas and colons in names by spaces, so two arrays may be merged under one name | `small_numbers_are_lost`, `names_are_merged` |
| C85 | `ValueProxy::values` does not check indices: `x(0, 5)` of a 2×3 array is `x(1, 2)`; an array with an empty dimension is written as `[]` | `index_outside_is_read`, `empty_dimension_loses_shape` |
| C46 | a quotation mark in a string makes the file unreadable (exception) | `quote_in_string_throws` |
| C86 | `Model::write_json` does not write the constant of the objective; an empty model name is written as `null`; names `a,b` and `a b` become equal when the file is read | `objective_constant_is_lost`, `no_name_is_null`, `names_become_equal` |
| C86 | the command line tool writes the instance after the solve: the definitions of variables that presolve replaced are missing in it | `definitions_are_lost` |
| C88 | `f(0) = e` with an array `e` standing for its only element drops the constant of `e` (here 5, from the objective) | `C88.element_assigned_from_an_array` |
| C88 | elements assigned a whole expression by `=` are no longer part of the sums over slices of their array; a satisfiable stated problem becomes one without solutions | `C88.slice_of_assigned_elements` |
| C90 | the right-hand side of the objective row (its constant) is dropped | `C90.constant_of_the_objective_is_lost` |
| C90 | a file with two free rows is refused if the first one is used | `C90.second_free_row_is_refused` |
| C90 | comment lines (`*`) are read as records: refused among the rows, among the right-hand sides they may change one | `C90.comments_are_read` |
| C90 | `OBJSENSE MAX` is taken for a title, and the problem is minimised | `C90.direction_is_ignored` |
| C90 | `BV` records with a number have no effect | `C90.binary_record_with_number_is_ignored` |
| C93 | with fixed variables in constraints the reported density exceeds 1 and the mean number of constraints per variable exceeds the reported maximum | `density_above_one` |
| C93 | `number_of_constraints` in the status (and in the solution files) counts constraints added by the presolve | `constraints_added` |
| C93 | the nonzeros labelled "original" are counted after dependent variables were eliminated | `original_not_original` |
| C93 | without constraints in use, the reported range of their sizes is 2147483647 to -2147483648 | `empty_ranges` |
| C95 | in a maximization the best solution found is missing among the locally optimal solutions shown: exported solutions store objective + penalty without the sign of the sense | `best_solution_is_missing_when_maximizing`, `best_solution_may_be_missing` |
| C75 | variables without constraints are fixed before constraints that always hold are disabled, and a disabled constraint counts there: a variable whose constraints are all redundant stays changeable. Local search merges two moves of it and scores both changes; the solution is stored with an objective it does not have, and a better solution visited later is not stored (default options) | `Twice.better_solution_is_visited_and_lost` |
| C97 | in a maximization the tables of the searches print the violation of the incumbent with a minus sign (`total_violation * SIGN`) | `incumbent_violation_is_shown_negative` |
| C97 | a row marked as a new best feasible solution may show an infeasible solution under "Incumbent Solution", because the column is always the augmented incumbent | `announced_row_shows_infeasible_incumbent` |
| C98 | of two arrays of variables with the same name only the last one's update counts are exported | `equal_names_hide_counts` |
| C99 | the satisfaction frequency of a constraint divides by the number of alterations instead of moves: a constraint violated after every move is said to be satisfied half of the time if every move alters two variables | `frequency_is_overstated` |
| C99 | the lists of frequencies have six lines although the maximum is 5 (`count > MAX`) | `six_lines_instead_of_five` |
| C100 | the options given to a function called back are a local copy made for the search just finished: whatever the function writes there is ignored, so it cannot end the call or change the next searches that way | `written_options_have_no_effect` |
| C101 | a model that is initialized keeps its variables, expressions and constraints | `initialized_keeps` |
| C101 | if a model with arrays is initialized and arrays of the same kind are created, the next call of the solver reads names behind the end of a list | `initialized_undefined` |
| C102 | the rows for `<=`, `==`, `>=` leave out the constraints that the user switched off, the total and the types of the same table count them | `comparisons_do_not_add_up` |
| C103 | `trend.txt` shows the objectives of a maximization with the opposite sign | `objective_is_written_negated` |
| C105 | the normalized gap of PDLP tests the upper bound of a dual variable twice and never the lower one: it is zero at an infeasible point and positive at a solution | `zero_at_an_infeasible_point`, `positive_at_a_solution` |
| C107 | the restarts of PDLP compare the gap with that of the restart before the last one: the second loop ends at its first check, and a restart comes although the gap has grown a hundredfold | `second_loop_ends_at_once`, `restart_without_progress` |
<!-- more findings: append rows above -->

## 5. Axioms

`AXIOMS.txt` lists, for every theorem named in `MANIFEST.json`, the axioms it depends on (output of
`#print axioms`, produced by `tools/axioms.sh`). No other axioms than `propext`, `Classical.choice`, `Quot.sound` occur.

## 6. What is modelled and what is not

| file(s) in /repo/printemps | model | not modelled |
|---|---|---|
| model_component/expression*.h, constraint*.h, variable*.h, objective.h, selection.h | `Model/{Expression,Constraint,Variable,Selection,Proxy}` | printing, the forwarding of scalar accessors by proxies |
| multi_array/*.h | `Model/MultiArray` | value proxies of `NamedSolution` beyond lookup |
| model/model.h | `Model/{Model,Improvability,Solution,DualBound,LinearProgram,Mps,Rounded,Search,Setup,Whole,Names,Online,ModelFile,Program}` | printing, callbacks, `export_*_json` |
| preprocess/*.h | `Model/{Presolve,Dependent,ConstraintType,SelectionExtract,Verifier,GF2,Flippable}` | messages |
| neighborhood/*.h | `Model/{Moves,Chain,Neighborhood,Offered}` | order of evaluation of OpenMP loops |
| solver/tabu_search, local_search, lagrange_dual | `Model/{TabuSearch,SearchLoop,LocalSearch,Penalty,DualBound,Memory,StepSize,Search,Controller,Limits,Tuning,SearchReport}` | logging, wall-clock time (arbitrary oracle) |
| solver/tabu_search/core/tabu_search_core.h, solver/local_search/core/local_search_core.h, solver/lagrange_dual/core/lagrange_dual_core.h: tables | `Model/Table` | widths, digits, colors, counts of neighborhoods, Lagrangian and step size |
| solver/solver.h: export_named_*; model/model.h: export_*_proxies | `Model/Statistics` | shapes of arrays (elements are listed in order) |
| solver/tabu_search/controller/tabu_search_controller.h: summaries of updates and violations | `Model/Summary` | texts, digits |
| model/model.h: callback; solver/tabu_search/controller/tabu_search_controller.h: run, conditions to end | `Model/Callback` | trend file, texts |
| model/model.h: initialize, names; solver/solver.h: the check that a model is solved once; preprocess/verifier.h: verify_problem | `Model/Life` | names copied along with expressions (C73) |
| model/model.h: print_number_of_variables, print_number_of_constraints | `Model/SizeTable` | the texts of the rows |
| solver/tabu_search/controller/tabu_search_controller_logger.h | `Model/Trend` | the columns for times, speeds, intensities, penalties, flags and threads; the text |
| solver/search_tree.h, solver/global_state.h, solver/abstract_solver_controller.h | `Model/SearchTree` | printing of the lists; the order in which an unordered set of edges is visited |
| solver/status.h, utility/range.h | `Model/Status` | times, option, penalty coefficients and counts by name; the JSON text (see C86) |
| solver/pdlp, linear_programming | `Model/{LinearProgram,Pdlp,Gap,Restart,RestartRun}` | convergence to an optimum, logging |
| solution/*.h | `Model/{Incumbent,Archive,Solution,ArrayFile,SolutionFile}` | printing |
| utility/*.h | `Model/{HashMap,Queue,UnionFind,Graph,BinaryMatrix,SparseMatrix,Json,Text,Learner}` | console, random numbers, time keeper |
| mps/mps.h | `Model/{Mps,Import}` | continuous bounds, counters |
| option/*.h | `Model/Option` | `print` |
| standalone/, helper/ | `Model/Standalone`, `Model/Command` | usage text, status and trend files |
