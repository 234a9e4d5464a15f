#!/usr/bin/env python3
"""Writes /verif/properties.jsonl from the table below."""
import json, os
P = []
def p(title, statement, quantifier, why, anchors):
    P.append(dict(id="C%02d" % (len(P) + 1), title=title, statement=statement,
                  quantifier=quantifier, why_tests_cant=why, anchors=anchors))

p("Expression arithmetic means arithmetic",
  "Building an expression with +=, -=, *=, /=, unary minus and the binary operators, and then evaluating it under any variable values, gives exactly the number obtained by applying the same arithmetic to the values of the operands; no variable ever appears twice in the result.",
  "all expressions, all scalars (non-zero divisor), all assignments of integers to variables, all map iteration orders",
  "Expressions are arbitrary finite maps; a test only checks a few shapes and assignments.",
  ["printemps/model_component/expression.h: operator+=, operator-=, operator*=, operator/=, operator-", "printemps/model_component/expression_binary_operator.h"])
p("Comparison operators build the constraint that was written",
  "For the constraint object produced by a <= b, a == b or a >= b (where each side is an expression or a number), the reported violation is zero under an assignment exactly when the written comparison holds of the two sides' values, and otherwise equals the amount by which it fails.",
  "all pairs of sides, all three senses, all assignments",
  "The sign conventions must be right for every operand kind and assignment.",
  ["printemps/model_component/constraint_binary_operator.h", "printemps/model_component/constraint.h: update"])
p("Expression bounds enclose every reachable value and are attained",
  "lower_bound() and upper_bound() of an expression enclose its value under every assignment that respects the variable bounds and the fixed values, and each of the two is the value under some such assignment.",
  "all expressions, all bounds with lb<=ub, all fixed subsets, all in-bound assignments",
  "Universally quantified over assignments (exponentially many) and over coefficients' signs.",
  ["printemps/model_component/expression.h: lower_bound, upper_bound"])
p("Incremental expression evaluation equals recomputation",
  "If an expression's stored value is current, evaluating it for a move (without applying the move) yields exactly the value that a full recomputation would give after the move has been applied.",
  "all expressions, current values, moves with pairwise distinct altered variables",
  "Holds for every move and state; also needs a precise account of which moves are outside it (a variable altered twice).",
  ["printemps/model_component/expression.h: evaluate(move), update(move)", "printemps/utility/fixed_size_hash_map.h"])
p("Constraint violation and margin semantics",
  "After a full or an incremental update, a constraint's violation is non-negative, is zero exactly when the relation holds, equals the distance to satisfaction, and its margin equals the slack of an inequality (zero for equalities); incremental and full updates agree.",
  "all constraints, senses, states and moves",
  "Needs all real constraint values and all senses; incremental/full agreement ranges over all moves.",
  ["printemps/model_component/constraint.h: update(), update(move), is_feasible"])
p("A move's full score describes the state after the move",
  "evaluate(move) returns the objective (sign-adjusted to minimisation), total violation, local and global penalties, augmented objectives and feasibility flag that the model would have after applying the move.",
  "all models, states with current stored values, moves over distinct mutable variables",
  "Every model/state/move triple.",
  ["printemps/model/model.h: evaluate(score*, move)", "printemps/solution/solution_score.h"])
p("Fast single-variable scoring equals full scoring",
  "Scoring a move that changes one variable by the fast path gives the same objective, violation and penalties as the full evaluation; skipping constraints that have a safe margin never changes the result by more than the 1e-10 tolerance per skipped constraint, and not at all when the margin flag was produced by an incremental update.",
  "all models, states, single-variable moves (binary flips when a skipped constraint is involved)",
  "Soundness of the skip must hold for every coefficient pattern and margin.",
  ["printemps/model/model.h: evaluate_single", "printemps/model_component/constraint.h: is_evaluation_ignorable, update"])
p("Fast multi-variable scoring equals full scoring",
  "Scoring a move that changes several variables by the fast path gives the same objective, violation and penalties as the full evaluation, up to the 1e-10 change threshold per constraint under which the fast path skips a constraint.",
  "all models, states, moves whose related-constraint list covers the touched constraints",
  "Ranges over all moves and constraint sets.",
  ["printemps/model/model.h: evaluate_multi"])
p("Fast selection scoring equals full scoring",
  "Scoring a selection swap by index ranges gives the same violation and penalties as full evaluation, whether or not the two variables share constraints.",
  "all selections, orderings of related constraints, states",
  "Depends on the interval layout of related constraints for every pair of variables.",
  ["printemps/model/model.h: evaluate_selection, setup_variable_related_constraints"])
p("Stored values never drift",
  "After any sequence of moves applied by update(move), every enabled constraint's and the objective's stored values equal a recomputation from the variable values, and the model's feasibility flag says exactly whether all enabled constraints are satisfied within tolerance.",
  "all models and all finite sequences of moves over distinct mutable variables",
  "Inductive over unbounded histories.",
  ["printemps/model/model.h: update(), update(move), update_violative_constraint_ptrs_and_feasibility"])
p("The incumbent is the best of the whole history",
  "After any sequence of offered solutions, the feasible incumbent (if any) is one of the offered feasible solutions with its own score, its objective never increases over time, and no offered feasible solution beats it by more than the 1e-5 tolerance; likewise for the global augmented incumbent and, since the last reset, for the local one; the returned status bits say exactly which incumbents changed.",
  "all histories of offers and resets",
  "Quantifies over unbounded histories.",
  ["printemps/solution/incumbent_holder.h: try_update_incumbent, reset_local_augmented_incumbent"])
p("The solution archive keeps the best distinct solutions",
  "After any sequence of pushes the archive is sorted by objective in the configured direction, has at most the configured capacity, contains only pushed solutions, and contains a solution with the best objective ever pushed.",
  "all push histories, capacities, sort modes",
  "Histories are unbounded; truncation interacts with sorting and duplicate removal.",
  ["printemps/solution/solution_archive.h: push"])
p("Multi-dimensional indexing is a bijection",
  "For an array of any shape, converting an in-range multi-dimensional index to a flat index gives a number below the number of elements, converting back returns the same index, and every flat index comes from exactly one multi-dimensional index.",
  "all shapes, all in-range indices",
  "Unbounded dimensions and extents.",
  ["printemps/multi_array/abstract_multi_array.h: setup, compute_flat_index, update_multi_dimensional_index"])
p("Element labels are unique",
  "Two different elements of the same array receive different labels, so solutions keyed by element name never conflate two variables.",
  "all shapes, all pairs of flat indices",
  "Unbounded shapes; padding with blanks must not create collisions.",
  ["printemps/multi_array/abstract_multi_array.h: indices_label"])
p("Coefficient lookup tables agree with the map they were built from",
  "The fixed-size open-addressing table used in incremental evaluation returns, for every pointer key, the coefficient stored in the source map, and zero for every other key.",
  "all key sets (any pointer values, any collision pattern), all queries",
  "Collision and wrap-around patterns depend on arbitrary addresses.",
  ["printemps/utility/fixed_size_hash_map.h: setup, at"])
p("Union-find answers connectivity",
  "After any sequence of unite calls, is_same(a,b) holds exactly when a and b are connected by the united pairs, whatever the balancing heuristics did.",
  "all element sets, all operation sequences",
  "Unbounded histories; path compression mutates on queries.",
  ["printemps/utility/union_find.h: root, unite, is_same"])
p("Minimum spanning tree",
  "The edges returned form a forest that connects exactly what the input edges connect, and its total weight is minimal among all such edge sets.",
  "all finite weighted graphs",
  "Optimality quantifies over all competing spanning forests.",
  ["printemps/utility/graph/graph.h: minimum_spanning_tree"])
p("GF(2) inverse is an inverse",
  "When inverse_and_rank reports rank equal to the size, the returned matrix multiplied with the input gives the identity modulo 2, hence solving a linear system over GF(2) with it returns a solution.",
  "all square 0/1 matrices of any size",
  "2^(n*n) inputs for each n.",
  ["printemps/utility/binary_matrix.h: inverse_and_rank, dot", "printemps/preprocess/gf2_solver.h"])
p("Full rank is reported exactly for invertible matrices",
  "inverse_and_rank reports full rank if and only if the matrix is invertible modulo 2.",
  "all square 0/1 matrices",
  "Same as above; also needs the converse.",
  ["printemps/utility/binary_matrix.h: inverse_and_rank"])
p("Reachability is the transitive closure",
  "The reachability matrix has entry (i,j) set exactly when j can be reached from i by a path of one or more edges.",
  "all square 0/1 matrices",
  "Path lengths and sizes unbounded; depends on the iteration count being enough.",
  ["printemps/utility/binary_matrix.h: reachability"])
p("Bound tightening loses no solution",
  "The presolve step that tightens a variable's bounds from a constraint removes no integer assignment that satisfied the constraint and all old bounds.",
  "all linear constraints, senses, bounds, feasible assignments",
  "Universally quantified over assignments; rounding direction and sign cases.",
  ["printemps/preprocess/problem_size_reducer.h: remove_redundant_constraint_with_tightening_variable_bound"])
p("Only implied constraints are dropped as redundant",
  "A constraint disabled by presolve because it is redundant is satisfied by every assignment within the variable bounds.",
  "all constraints, bounds, assignments",
  "All assignments.",
  ["printemps/preprocess/problem_size_reducer.h: remove_redundant_constraint_with_tightening_variable_bound"])
p("Single-variable constraints are absorbed into bounds",
  "When presolve disables a constraint on a single variable, the resulting bounds or fixed value admit exactly the integer values the constraint and old bounds admitted.",
  "all one-variable constraints and bounds",
  "Rounding, sign and limit cases over all rationals.",
  ["printemps/preprocess/problem_size_reducer.h: remove_redundant_constraint_with_tightening_variable_bound"])
p("Implicit equalities are real equalities",
  "When presolve turns a pair of opposite inequalities into one equality, the set of satisfying assignments is unchanged.",
  "all expressions, pairs of constraints, assignments",
  "All assignments and coefficient vectors.",
  ["printemps/preprocess/problem_size_reducer.h: extract_implicit_equality_constraints"])
p("Dropping duplicate constraints changes nothing",
  "Removing constraints that presolve regards as duplicates leaves the set of feasible assignments unchanged.",
  "all constraint sets",
  "All assignments and duplicate patterns; detection uses a weak hash.",
  ["printemps/preprocess/problem_size_reducer.h: remove_duplicated_constraints", "printemps/model_component/expression.h: equal"])
p("Dominated set-partitioning constraints are removed soundly",
  "When one set-partitioning constraint's variables contain another's, fixing the extra variables at zero and dropping the larger constraint leaves the set of feasible 0/1 assignments unchanged.",
  "all families of set partitioning constraints over binary variables",
  "All families and assignments.",
  ["printemps/preprocess/problem_size_reducer.h: remove_redundant_set_constraints"])
p("Fixing variables that occur in no constraint keeps the optimum",
  "Fixing a variable that appears in no constraint does not change the best attainable objective value, and the fixed value respects its bounds.",
  "all models, objectives, bounds",
  "Optimality over all assignments.",
  ["printemps/preprocess/problem_size_reducer.h: remove_independent_variables"])
p("Fixing dominated set variables keeps the optimum",
  "Fixing at zero a binary variable that covers the same set constraints as a cheaper one does not change the best attainable objective value.",
  "all set covering/packing/partitioning models",
  "Optimality over all assignments.",
  ["printemps/preprocess/problem_size_reducer.h: remove_redundant_set_variables"])
p("Eliminating dependent variables preserves the problem",
  "Replacing a dependent variable by the expression defined by its equality, in the objective and all constraints, preserves objective values and feasibility for all assignments satisfying the equality, and restoring the variable reproduces a feasible assignment of the original model.",
  "all models, all defining equalities without self reference, all assignments",
  "All assignments; chains and cycles of definitions.",
  ["printemps/preprocess/dependent_variable_extractor.h", "printemps/model_component/expression.h: solve, substitute"])
p("Extracted selections do not overlap",
  "The selection groups chosen by the solver are pairwise disjoint sets of binary variables, each being exactly the variable set of an enabled set-partitioning constraint, in every extraction mode.",
  "all models and extraction modes",
  "All overlap patterns.",
  ["printemps/preprocess/selection_extractor.h"])
p("Selection moves keep exactly one variable selected",
  "If initially exactly one variable of each selection is 1 (and it is the recorded selected variable), the same holds after any sequence of generated selection moves.",
  "all selections, all finite sequences of generated moves",
  "Unbounded histories.",
  ["printemps/neighborhood/selection_move_generator.h", "printemps/model/model.h: update(move)", "printemps/model_component/variable.h: select"])
p("Binary and integer moves stay inside the bounds",
  "Every enabled binary or integer move changes exactly one variable, to a different value inside its bounds (binary: the opposite value).",
  "all variables, bounds and current values within bounds",
  "Truncating division near the 31-bit limits; all bounds.",
  ["printemps/neighborhood/binary_move_generator.h", "printemps/neighborhood/integer_move_generator.h"])
p("Two-variable equality moves keep their equality",
  "Every move generated for an exclusive-or, exclusive-nor, inverted or balanced constraint leads to a state satisfying that constraint, whatever the current state.",
  "all such constraints (both sign patterns) and states",
  "All states and coefficient sign patterns.",
  ["printemps/neighborhood/exclusive_or_move_generator.h", "printemps/neighborhood/exclusive_nor_move_generator.h", "printemps/neighborhood/inverted_integers_move_generator.h", "printemps/neighborhood/balanced_integers_move_generator.h"])
p("Constant-sum/difference/ratio moves keep their equality",
  "Every move generated for a constant-sum, constant-difference or constant-ratio constraint leads to a state satisfying that constraint.",
  "all such constraints as classified and all states",
  "All coefficient sign patterns and states.",
  ["printemps/neighborhood/constant_sum_integers_move_generator.h", "printemps/neighborhood/constant_difference_integers_move_generator.h", "printemps/neighborhood/constant_ratio_integers_move_generator.h"])
p("Inequality pair moves keep their inequality",
  "Moves generated for a precedence constraint preserve satisfaction; moves generated for a variable-bound constraint lead to a state satisfying it; an aggregation move leads to the nearest integer point on the line, which satisfies the constraint whenever an integer solution exists for the moved variable.",
  "all such constraints and states",
  "Rounding directions over all coefficients.",
  ["printemps/neighborhood/precedence_move_generator.h", "printemps/neighborhood/variable_bound_move_generator.h", "printemps/neighborhood/aggregation_move_generator.h"])
p("Enabled special moves respect fixings and bounds",
  "No enabled special-neighbourhood move alters a fixed variable, takes a variable outside its bounds, or leaves all its variables unchanged.",
  "all move sets, states and screening flags",
  "All states.",
  ["printemps/neighborhood/abstract_move_generator.h", "printemps/neighborhood/exclusive_or_move_generator.h", "printemps/neighborhood/user_defined_move_generator.h"])
p("Step-size adjustment never worsens an integer move",
  "Adjusting the step of an integer move terminates, keeps the variable within its bounds, and yields a move whose augmented objective is no worse than the original move's.",
  "all bounds, values and score functions (no convexity assumed)",
  "The score function is arbitrary.",
  ["printemps/solver/integer_step_size_adjuster.h: adjust"])
p("Search intensity bookkeeping",
  "After any sequence of recorded moves the update counts, their total and the sum of squares used for the primal intensity are consistent, and the intensity lies between 0 and 1.",
  "all move histories",
  "Unbounded histories with incremental sum of squares.",
  ["printemps/solver/memory.h: update, primal_intensity"])
p("The shrunken penalty coefficient is exact",
  "For a model whose constraints have integer coefficients, minimising objective plus shrunken global penalty times total violation over the bounded integer assignments yields a feasible minimiser whenever a feasible assignment exists, and it is optimal for the original problem.",
  "all integer models and bounds",
  "Optimality over all assignments.",
  ["printemps/model/model.h: shrink_global_penalty_coefficient"])
p("The naive dual bound is a bound",
  "compute_naive_dual_bound returns a value not above (minimisation) / not below (maximisation) the objective of every assignment within bounds and fixings, and it is attained.",
  "all objectives, bounds, assignments",
  "All assignments.",
  ["printemps/model/model.h: compute_naive_dual_bound"])
p("Lagrangian values are dual bounds",
  "With multipliers kept in the sign region of the code, the Lagrangian at the assignment the code selects is a lower bound of the objective over all feasible in-bound assignments (minimisation).",
  "all models, multipliers, iterations, feasible assignments",
  "All assignments and multiplier sequences.",
  ["printemps/solver/lagrange_dual/core/lagrange_dual_core.h", "printemps/solver/lagrange_dual/core/lagrange_dual_core_state_manager.h: bound_dual, update_dual", "printemps/model/model.h: compute_lagrangian"])
p("LP dual objective is a lower bound",
  "For a dual vector inside the dual bounds whose reduced-cost residual vanishes, the dual objective computed for the LP relaxation does not exceed the primal objective of any primal-feasible point. The rows of the relaxation of a model are its enabled constraints and its selections: an assignment within the bounds gives a feasible point exactly if it satisfies them.",
  "all LPs, dual vectors, primal points",
  "All points.",
  ["printemps/solver/pdlp/core/pdlp_core_state_manager.h: update_objective, update_violation"])
p("MPS ranges follow the MPS standard",
  "A RANGES entry r on a row with right-hand side b restricts the row to the interval of the MPS standard ([b-|r|,b] for L, [b,b+|r|] for G, [b,b+|r|] or [b-|r|,b] for E by the sign of r).",
  "all rows, b, r, assignments",
  "All values.",
  ["printemps/mps/mps.h: RANGES section", "printemps/model/model.h: import_mps"])
p("MPS bounds admit exactly the integers the file allows",
  "For an integer column, the bounds installed from LO, UP, FX, BV, LI, UI, FR, MI, PL records admit exactly the integers allowed by the record.",
  "all records and values (also fractional)",
  "All rationals.",
  ["printemps/mps/mps.h: BOUNDS section"])
p("Writing and re-reading a model preserves it",
  "Writing a model in MPS form and importing it again yields a model with the same constraints, objective coefficients and variable bounds.",
  "all models within the supported range",
  "All models.",
  ["printemps/model/model.h: write_mps, import_mps", "printemps/mps/mps.h"])
p("JSON documents survive a round trip",
  "Serialising a JSON document built from nested objects, arrays, integers, null and plain strings and parsing the text again gives back the same document.",
  "all finite documents of any nesting depth within that fragment",
  "Unbounded nesting and content.",
  ["printemps/utility/json/json.h"])
p("Sparse matrix-vector product and transpose",
  "For entries sorted by row, the compressed product equals the mathematical matrix-vector product; transposing and multiplying equals the product with the mathematical transpose.",
  "all sizes, sparsity patterns (also duplicate entries), vectors",
  "All patterns.",
  ["printemps/utility/sparse/sparse_matrix.h: setup, dot, transpose"])
p("Solutions survive export and import",
  "Exporting the current assignment as a sparse (non-zero) or dense solution and importing it into the same model restores every variable value.",
  "all models with distinct variable names, all assignments",
  "All assignments.",
  ["printemps/model/model.h: export_sparse_solution, import_solution", "printemps/solution/dense_solution.h: to_sparse"])
p("Variable values respect bounds through the API",
  "After any sequence of bound changes and assignments within bounds, an unfixed variable's value lies within its bounds, the bound-margin flags agree with value and bounds, and a fixed variable never changes by plain assignment.",
  "all operation sequences",
  "Unbounded histories.",
  ["printemps/model_component/variable.h: set_bound, set_value, set_value_if_mutable, fix, unfix, fix_by, update_margin"])
p("Constraint classification is semantically right",
  "A constraint classified as exclusive-or, exclusive-nor, inverted, balanced, set partitioning/packing/covering, cardinality etc. is satisfied by an assignment of its binary/integer variables exactly when the relation named by the class holds, and every constraint gets at least one class.",
  "all constraints and assignments",
  "All coefficient patterns.",
  ["printemps/model_component/constraint.h: setup_constraint_type"])
p("Initial values are corrected or rejected",
  "After the initial value verification, either an error was raised or every selection has exactly one selected variable and every mutable binary/integer variable lies within its bounds; fixed variables are never changed.",
  "all models and initial assignments",
  "All assignments.",
  ["printemps/preprocess/verifier.h"])
p("Tabu rule and tenure",
  "A move is permissible under the Any (All) rule exactly when none (not all) of its variables was changed within the tenure; the adaptive tenure always stays between 1 (or its initial value) and the number of mutable variables.",
  "all moves, histories and option values",
  "Unbounded histories.",
  ["printemps/solver/tabu_search/core/tabu_search_core_move_evaluator.h: compute_permissibility", "printemps/solver/tabu_search/core/tabu_search_core_state_manager.h: update_tabu_tenure"])
p("The best admissible trial move is taken",
  "The selected move has the minimal total score among all trials unless a trial improving the incumbent is aspirated; a tabu move is selected only if no admissible one exists or it is aspirated.",
  "all score vectors",
  "All vectors.",
  ["printemps/solver/tabu_search/core/tabu_search_core.h: select_move"])
p("Search loops terminate",
  "The tabu search and local search loops perform at most the configured number of iterations, whatever the moves and scores are.",
  "all models, options and oracles",
  "All executions.",
  ["printemps/solver/tabu_search/core/tabu_search_core.h: run", "printemps/solver/local_search/core/local_search_core.h: run"])
p("Combined local-search moves add up",
  "When local search merges several improving moves that share no enabled constraint and no variable, the merged move's violation and objective change is the sum of the individual changes, so the merged move is improving as well.",
  "all sets of constraint-disjoint moves and states",
  "All combinations.",
  ["printemps/solver/local_search/core/local_search_core.h: run"])
p("An OPTIMAL verdict is right",
  "If the search stops with the optimal status because the feasible incumbent meets the dual bound, no feasible assignment is better than the incumbent by more than the tolerance; if it stops because no variable can improve the objective of a feasible solution, the solution is optimal.",
  "all models, states and feasible assignments",
  "Optimality over all assignments.",
  ["printemps/solver/tabu_search/core/tabu_search_core.h: satisfy_optimal_or_no_move_terminate_condition", "printemps/model/model.h: update_variable_objective_improvabilities"])
p("Improvability screening hides no improving move",
  "A single-variable move that the objective screening discards cannot improve the objective, and one that the feasibility screening discards cannot reduce the total violation beyond the feasibility tolerance.",
  "all models, states, single-variable moves",
  "All states.",
  ["printemps/model/model.h: update_variable_objective_improvabilities, update_variable_feasibility_improvabilities"])
p("Fixed-size queue statistics",
  "After any sequence of pushes the queue holds exactly the last max_size values in order and its average, minimum and maximum are those of the held values.",
  "all push histories",
  "Unbounded histories.",
  ["printemps/utility/fixed_size_queue.h"])
p("Result reporting",
  "The returned solution is the feasible incumbent when a feasible solution was ever found and otherwise the best augmented one; a model can be solved only once.",
  "all search histories",
  "All histories.",
  ["printemps/solver/solver.h: postprocess, preprocess", "printemps/solution/incumbent_holder.h"])
p("Local penalty coefficients stay within range",
  "Whatever sequence of penalty updates the controller performs, each local penalty coefficient stays non-negative and never exceeds the global penalty coefficient after the limiting step.",
  "all update histories",
  "Unbounded histories.",
  ["printemps/model_component/constraint.h: limit_local_penalty_coefficient, reset_local_penalty_coefficient", "printemps/solver/tabu_search/controller/tabu_search_controller_state_manager.h"])
p("Fixing and unfixing variables by name",
  "Fixing variables by name fixes exactly the named variables at the given values and leaves every other variable alone; unfixing by name makes exactly the named variables free again and leaves every other variable, and all values, as they are.",
  "all models, all name lists and all values",
  "All combinations of names and previous fixings.",
  ["printemps/model/model.h: fix_variables, unfix_variables"])
p("Distances between solutions",
  "The distance between two solutions of a model is the number of variables with different values (and, for the L1 variant, the sum of the absolute differences), for the dense and for the sparse representation; it is symmetric, zero exactly for equal values, and satisfies the triangle inequality.",
  "all pairs and triples of solutions with any number of variables",
  "All pairs of solutions.",
  ["printemps/solution/dense_solution.h: distance", "printemps/solution/sparse_solution.h: distance", "printemps/utility/unordered_map_utility.h: distance_l0, distance_l1"])
p("Solving parity equations during preprocessing",
  "When preprocessing solves the equations that say that a sum of 0/1 variables is even or odd, it fixes the 0/1 variables at the only values any feasible assignment can give them, it loses no feasible assignment and invents none; when it cannot solve the equations it changes nothing; and it succeeds exactly when there are as many 0/1 variables and auxiliary variables as equations and the equations determine the values.",
  "all models, all sets of parity equations of any size, all assignments",
  "All equation systems and all assignments; regularity over the two-element field.",
  ["printemps/preprocess/gf2_solver.h: solve", "printemps/utility/bidirectional_map.h: BidirectionalMap"])
p("Chain moves are combinations of consecutive moves",
  "After two consecutive moves the search stores either nothing or the combination of the two and its reverse: the combination alters exactly the variables of both moves, each once, the reverse undoes it on 0/1 variables, and its list of constraints is exactly that of both moves without repetition, so that its fast score is right. Between two runs the store never exceeds its capacity, holds only moves that were stored before, holds no two moves with the same alterations, loses no move unless there are too many, and then keeps those with the highest overlap. The overlap rate lies between 0 and 1.",
  "all pairs of moves, all stores of any size, all sort and shuffle outcomes",
  "All move histories, all store contents and all memory layouts.",
  ["printemps/neighborhood/move.h: operator+, operator==, setup_overlap_rate, setup_hash, sort_and_unique_related_constraint_ptrs", "printemps/neighborhood/chain_move_generator.h", "printemps/solver/tabu_search/core/tabu_search_core.h: update_chain_moves", "printemps/solver/tabu_search/controller/tabu_search_controller_state_manager.h: sort_and_deduplicate_chain_moves, reduce_chain_moves"])
p("Rounding does not change scores of models with binary-grid data",
  "When all coefficients and constants are integer multiples of one power of two and the largest possible sums stay below 2^53 such multiples, the double arithmetic of the solver is exact: recomputed values, values updated over any number of moves, and the total violations predicted by full and fast scoring are the true ones. For arbitrary data the stored value of an expression is off by at most a factor ((1+2^-53)^(n+1) - 1) of the accumulated magnitudes.",
  "all expressions and models, all histories of moves, all values within the bounds",
  "Rounding errors depend on every value and on the whole history of moves.",
  ["printemps/model_component/expression.h: evaluate, update", "printemps/model/model.h: evaluate, evaluate_single, evaluate_multi"])

p("What a whole run of the solver guarantees",
  "However the searches are interleaved and wherever they start from, as long as every accepted move changes free variables within their bounds: the solution that solve reports is one of the assignments the searches visited (dependent variables being computed from the others), within the bounds and with the fixed values, and all reported numbers belong to it. If a feasible assignment was visited the reported one is feasible and its objective is at most 1e-5 worse than that of any feasible assignment visited; otherwise its augmented objective is at most 1e-5 worse than that of any assignment visited. No exception is thrown if all assignments visited respect the selections.",
  "all models, all sequences of searches, moves, restarts, relaxations and penalty changes of any length",
  "The result depends on the whole history of moves, penalty changes and restarts.",
  ["printemps/solver/solver.h: solve, postprocess", "printemps/solver/tabu_search/core/tabu_search_core.h: run", "printemps/solver/local_search/core/local_search_core.h: run", "printemps/solver/lagrange_dual/core/lagrange_dual_core.h: run", "printemps/solution/incumbent_holder.h: try_update_incumbent", "printemps/model/model.h: evaluate_single, evaluate_multi, evaluate_selection, update"])

p("Preprocessing as a whole keeps the optimum",
  "However the preprocessing options are set, setting up a feasible model ends without error. Every solution of the model after preprocessing is a solution of the model the user built and has the same objective value, and for every solution of the user's model the preprocessed one has a solution that is no worse. Constraints replaced by selections count as the condition that exactly one of their variables is 1.",
  "all models, all combinations of preprocessing options, all assignments",
  "The stages change the model one after the other, and each relies on what the earlier ones left; all models and option combinations.",
  ["printemps/model/model.h: setup", "printemps/preprocess/problem_size_reducer.h", "printemps/preprocess/selection_extractor.h", "printemps/preprocess/dependent_variable_extractor.h", "printemps/option/preprocess_option.h"])

p("A whole call of the solver is honest about the user's model",
  "A model is handed to the solver, which transforms it, searches the transformed model in any way, and reports. The report marks its values as feasible exactly if they satisfy all constraints and bounds of the model the user built (not only of the transformed one). The reported objective is the user's objective of these values. If the search came across a solution of the user's model, a solution is reported, and its objective is at most 1e-5 worse than that of every solution it came across.",
  "all feasible models with integral constraints, all preprocessing options without dependent variables, all sequences of search events of any length",
  "The transformation, the search and the report interact; neither all models nor all courses of the search can be sampled.",
  ["printemps/solver/solver.h: setup, solve, postprocess", "printemps/model/model.h: setup", "printemps/preprocess/verifier.h", "printemps/preprocess/problem_size_reducer.h", "printemps/preprocess/selection_extractor.h", "printemps/solution/incumbent_holder.h: try_update_incumbent"])

p("The option file is followed",
  "After an option file has been read, every option has the value the file gives for it, and its default value if the file does not mention it. A number may be written as an integer, an enumeration by name or number. A value of the wrong type is reported. Entries that are no options change nothing. Options that are written to a file and read again are unchanged.",
  "all option files, all settings of the options",
  "Each test sets one file; there are more than a hundred options, of different types, and any combination of them and of unknown entries can occur.",
  ["printemps/option/option.h: initialize, setup, to_json", "printemps/option/read_json.h: read_json", "printemps/option/general_option.h", "printemps/option/penalty_option.h", "printemps/option/parallel_option.h", "printemps/option/preprocess_option.h", "printemps/option/restart_option.h", "printemps/option/neighborhood_option.h", "printemps/option/output_option.h", "printemps/option/pdlp_option.h", "printemps/option/lagrange_dual_option.h", "printemps/option/local_search_option.h", "printemps/option/tabu_search_option.h"])

p("The command line program does what its arguments and files say",
  "Each flag of the command line has the value given last, each switch counts if it is given, in any order. The variables listed in the fixed-variable file are fixed at their values; with a mutable-variable file all variables but the listed ones are fixed; the constraints and pairs listed are used; the initial values are those of the initial solution file, 0 for variables it does not mention. The solution file of one run given as initial solution of another restores the values of all variables.",
  "all argument lists, all file contents, all models",
  "All combinations of arguments and all contents of files, and names and numbers of any form.",
  ["printemps/standalone/mps_solver.h: parse_command_line_arguments, setup", "printemps/helper/auxiliary_file_reader.h: read_names_and_values, read_names, read_name_pairs", "printemps/solution/named_solution.h: write_solution", "printemps/model/model.h: import_solution, fix_variables, unfix_variables, set_user_defined_selection_constraints, setup_flippable_variable_ptr_pairs"])

p("Pairs of variables for two-flip moves",
  "The pairs the extractor lists are exactly the pairs of different, free 0/1 variables of enabled constraints that occur together in at least the required number of constraints; each is listed once, with its number of common constraints and its share of them, and the list is ordered by this share. The file of pairs, read by a later run, gives the same pairs. An enabled two-flip move exchanges the two values, so it keeps their sum and the bounds.",
  "all models, all thresholds, all iteration orders of the sets, all names of variables",
  "All models, thresholds and iteration orders of hash sets; sharing of constraints is a property of the whole model.",
  ["printemps/preprocess/flippable_variable_pair_extractor.h: extract_pairs, write_pairs", "printemps/preprocess/flippable_variable_pair.h", "printemps/utility/unordered_set_utility.h", "printemps/neighborhood/two_flip_move_generator.h: setup", "printemps/model/model.h: setup_flippable_variable_ptr_pairs"])

p("Sums, scalar products and selections over arrays mean what their indices say",
  "x.sum() and x.sum({i, All, ...}) of an array of variables are the sums of exactly the elements whose index agrees with the given one where it is not All; x.dot({..., All, ...}, c) is the scalar product of c with the elements along the free coordinate, in order. A call is refused exactly if the number of indices, of All or of coefficients does not fit. x.selection({...}) says that exactly one of these variables is 1. x.set_bound(l, u) sets the bounds of all elements and of nothing else. The same sums and products over arrays of expressions are those of the expressions last assigned to the elements.",
  "all shapes with any number of dimensions, all index patterns, all coefficients, all values",
  "Shapes, patterns and coefficients are unbounded; unit tests use one or two small shapes and only assign variables to elements of expression arrays.",
  ["printemps/model_component/variable_proxy.h: sum, dot, selection, set_bound, operator()", "printemps/model_component/expression_proxy.h: sum, dot, operator()", "printemps/model_component/expression.h: operator=", "printemps/multi_array/abstract_multi_array.h", "printemps/multi_array/abstract_multi_array_element.h"])

p("Names identify variables, expressions and constraints",
  "After setup each element has the name the user gave it, or else the name of its array followed by its label. Different elements have different names. Creating an array is refused exactly if its name contains a blank or there are already one hundred arrays of its kind.",
  "all models, all names, all shapes",
  "All combinations of names and shapes; a collision can arise between any two elements.",
  ["printemps/model/model.h: setup_unique_names, create_variable, create_variables, create_expressions, create_constraints", "printemps/multi_array/abstract_multi_array.h: indices_label", "printemps/multi_array/abstract_multi_array_element.h", "printemps/utility/string_utility.h: has_space"])

p("The neighbourhood offers only legal moves",
  "In every state a search can reach, whatever is switched on, every move offered by the neighbourhood changes each variable at most once, leaves fixed and dependent variables alone, gives values within the bounds, keeps every selection at exactly one chosen variable, and lists every constraint its variables occur in. The same holds for the moves the searches make up themselves (merged moves, adjusted steps, chains). So what is reported of a run is the best of the visited assignments without an assumption on the moves.",
  "all models, all states reached by any sequence of moves, starts and changes of penalties, all filters and options of the neighbourhood, all sampled moves",
  "The states reached, the combination of classes of moves switched on and the history of chains cannot be enumerated.",
  ["printemps/neighborhood/neighborhood.h: update_moves", "printemps/neighborhood/binary_move_generator.h", "printemps/neighborhood/integer_move_generator.h", "printemps/neighborhood/selection_move_generator.h", "printemps/neighborhood/chain_move_generator.h", "printemps/neighborhood/two_flip_move_generator.h", "printemps/neighborhood/abstract_move_generator.h", "printemps/solver/tabu_search/core/tabu_search_core.h", "printemps/solver/local_search/core/local_search_core.h", "printemps/model/model.h: setup, setup_neighborhood"])

p("A call whose setup succeeded ends with a result",
  "Once the setup has succeeded, a call of the solver ends with a result and does not throw, whatever the searches do. The incumbents from which searches start again have the values of assignments visited before. The generator of selection moves never meets a selection without a chosen variable.",
  "all models, all sequences of moves offered by the neighbourhood, starts, relaxations and changes of penalties, of any length",
  "A throw at the end of a run depends on the whole history of values and of recorded chosen variables.",
  ["printemps/solver/solver.h: solve, run_tabu_search, run_local_search, run_lagrange_dual", "printemps/model/model.h: import_solution, update", "printemps/neighborhood/selection_move_generator.h", "printemps/solution/incumbent_holder.h", "printemps/solver/tabu_search/controller/tabu_search_controller_state_manager.h: update_current_solution", "printemps/solver/lagrange_dual/controller/lagrange_dual_controller.h"])

p("A whole call ends with a right report",
  "For a model the user builds that has a solution: if the setup succeeds, the call ends with a report, whatever moves of the neighbourhood the searches take. The reported values are marked feasible exactly if they solve the model as the user built it, the reported objective is the objective of these values, and if a solution was come across, the report is one and at most 1e-5 worse than any solution come across.",
  "all models without parity equations, all settings of the presolver and of the selections, all runs of moves offered by the neighbourhood, starts, relaxations and changes of penalties",
  "It combines presolve, the correction of initial values, the generators of moves, the incremental evaluation, the incumbents and the postprocessing over runs of any length.",
  ["printemps/solver/solver.h: setup, preprocess, solve, postprocess", "printemps/model/model.h: setup, setup_neighborhood, update, import_solution, export_named_solution", "printemps/neighborhood/neighborhood.h: setup, update_moves", "printemps/preprocess/verifier.h", "printemps/solution/incumbent_holder.h"])

p("Bounding variables during the search loses no improving solution",
  "When the search has found a better feasible solution, the bounds of the variables are tightened by the demand that the objective be no worse. This ends normally, changes nothing but variables, keeps every assignment within the bounds that is at least as good, adds none, and leaves the optimal value as it is. Searches that follow work on a model whose selections still have exactly one chosen variable.",
  "all models, all objective values of solutions, all assignments within the bounds",
  "It must hold for every assignment that might still be found; one lost optimum is not noticed.",
  ["printemps/model/model.h: update_variable_bounds", "printemps/preprocess/problem_size_reducer.h: remove_redundant_constraint_with_tightening_variable_bound, remove_implicit_fixed_variables", "printemps/solver/tabu_search/controller/tabu_search_controller.h: run", "printemps/preprocess/verifier.h", "printemps/neighborhood/selection_move_generator.h"])

p("Every search starts from a solution come across before, by fixed rules",
  "Each tabu search starts from the global incumbent, from the best solution of the search before, or from where that one started; after an improvement of the global incumbent the default mode starts there; penalties are either tightened or relaxed, tightened only after a search that improved something but not the global incumbent and found nothing feasible; they are reset only while no feasible solution is known. A whole call that chooses its starts by these rules always has a solution to start from, never throws, and ends with a right report.",
  "all models without parity equations, all outcomes of all searches, any number of searches of any length",
  "Which start is chosen depends on the whole history of the call; an import that throws needs one bad start among thousands.",
  ["printemps/solver/tabu_search/controller/tabu_search_controller_state_manager.h: update, update_current_solution", "printemps/solver/tabu_search/controller/tabu_search_controller.h: run", "printemps/solver/solver.h: solve", "printemps/solver/local_search/controller/local_search_controller.h: run", "printemps/solver/lagrange_dual/controller/lagrange_dual_controller.h: run", "printemps/model/model.h: import_solution"])

p("Target, time and iteration limits hold for the call as a whole",
  "A target objective value set by the user counts in the user's direction: it is reached when the feasible incumbent is at most the target for minimisation and at least the target for maximisation; without a target a call with an objective goes on and a call without one stops at the first feasible solution. If the time is over or the target is reached when the searches begin, nothing is searched. Whatever the steps do, all searches of a call end, and no step of any of them begins after the time limit (plus the time for constructing that search) or after the target was reached.",
  "all targets, both directions, all options, all searches with arbitrary steps and arbitrary times they take",
  "A clock that starts late or an offset that is added in the wrong place shows only for particular timings of particular runs; the sign of the target matters only for maximisation with a target.",
  ["printemps/solver/solver.h: setup_target_objective, solve", "printemps/solver/lagrange_dual/controller/lagrange_dual_controller.h: run", "printemps/solver/local_search/controller/local_search_controller.h: run", "printemps/solver/tabu_search/controller/tabu_search_controller.h: run, satisfy_time_over_terminate_condition", "printemps/solver/tabu_search/core/tabu_search_core.h: run", "printemps/utility/time_keeper.h"])

p("The LP solver ends, stays within bounds, and its verdicts mean what they say",
  "With PDLP enabled, the LP relaxation is solved in finitely many steps: every search for a step size ends, there are at most iteration_max iterations, nothing undefined happens on the way from the model to the result. The primal points stay within the bounds and the dual points keep their signs. Whatever the verdict, the reported dual objective is at most the objective of every feasible point, up to an error given by the reported dual violation. OPTIMAL means that a point within the bounds misses every row by at most what the tolerance allows and is optimal up to the tolerance; INFEASIBLE means that the LP has no feasible point.",
  "all models and LPs, all initial points, all decisions about restarts, all clock readings, all square root and power functions with the stated bounds",
  "The step sizes, averages and restarts are computed from real data over thousands of iterations; a loop that does not end and a wrong verdict need particular data.",
  ["printemps/solver/pdlp/core/pdlp_core.h: run, satisfy_optimal_terminate_condition, satisfy_infeasible_terminate_condition", "printemps/solver/pdlp/core/pdlp_core_state_manager.h: update_solution, update_averaged_solution, update_restart_information, setup_new_inner_loop, update_convergence_information", "printemps/solver/pdlp/controller/pdlp_controller.h: run", "printemps/model/model.h: export_lp_instance", "printemps/linear_programming/linear_programming.h: scaling", "printemps/utility/sparse/sparse_matrix.h: setup_norm"])

p("Rounds of extracting dependent variables keep the problem",
  "Setting up a model turns variables into dependent ones in rounds: equalities define variables, the definitions are substituted everywhere, the model is reduced, and so on until nothing more is found. This ends, throws nothing for a feasible model, and leaves a model that stands for the user's: every assignment the search may report, with the dependent variables restored from their definitions, is feasible for the user's model with the objective value the search saw; every feasible assignment of the user's model is matched by one at least as good; no dependent variable is left in the objective, in an enabled constraint or in a definition; and a constraint is only replaced by a selection if it demands just that.",
  "all models with integer coefficients, bounds below 100000 and a feasible assignment, all option settings, all orders of names, any number of rounds",
  "The number of rounds and what each of them finds depend on the model; substitution creates constraints the user never wrote, whose coefficients and types only arise in later rounds.",
  ["printemps/model/model.h:setup", "printemps/preprocess/dependent_variable_extractor.h:DependentVariableExtractor", "printemps/preprocess/problem_size_reducer.h:ProblemSizeReducer", "printemps/preprocess/selection_extractor.h:SelectionExtractor", "printemps/model_component/constraint.h:setup_constraint_type"])

p("The report of a call that replaces variables by definitions solves the user's model",
  "When the setup replaces variables by definitions found in equalities, the search works on a smaller model. Whatever the searches do, the report is in terms of the user's model: all variables have values, the replaced ones those of their definitions; the report is marked feasible exactly if these values solve the model as the user built it; its objective is then the objective of these values; and if a solution of the user's model was come across, the report is one and at most 1e-5 worse than any solution come across.",
  "all models with integer coefficients without parity equations, all option settings (with and without replacing variables), all orders of names, all runs of legal moves, starts, relaxations and changes of penalties",
  "It combines the rounds of substitution, the flags stored with each constraint, the incremental evaluation and the restoring of the values over runs of any length; a wrong flag only shows for particular moves at particular values.",
  ["printemps/solver/solver.h: setup, solve, postprocess", "printemps/model/model.h: setup, evaluate, update, export_named_solution", "printemps/preprocess/dependent_variable_extractor.h:DependentVariableExtractor", "printemps/model_component/constraint.h: setup, update, evaluate_violation_diff", "printemps/solution/incumbent_holder.h"])

p("Every search of a call is told what the user's options allow",
  "A call runs many tabu searches and chooses the options of each of them. Whatever the searches find: screening, early stops, random moves at the beginning, special kinds of moves, tabu tenure, iteration limit and number of threads stay within what the user sets; options whose automatic adjustment is switched off keep the user's value; no search is allowed more iterations than iteration_max; after an improvement the next search is cautious, after stagnation it uses all kinds of moves the user allows; with automatic parallelization the first searches try each candidate number of threads once and later ones use the one with the largest upper confidence; the reported average number of threads is the average over the searches.",
  "all options, machines, numbers of searches and all results of the searches",
  "The options of a search depend on the results of all searches before it; a limit that is exceeded or a choice that is forgotten shows only for particular sequences of results and particular options.",
  ["printemps/solver/tabu_search/controller/tabu_search_controller_state_manager.h: setup, create_option, update, update_improvability_screening_mode, update_number_of_initial_modification, update_pruning_rate_threshold, update_parallelization_controllers, update_move_update_parallelization", "printemps/utility/ucb1/learner.h", "printemps/utility/ucb1/action.h", "printemps/solver/solver.h: solve"])

p("What a search reports about itself is what happened",
  "After a tabu search its result says which incumbents (local, global, feasible) were improved and in which iteration for the last time, the ranges of the objectives met, the ratio of objective to penalty, whether a feasible solution was found, whether the moves ran out, how many iterations and moves were made, and the share of effective moves. Whatever the search visits: an improvement is reported exactly if a visited solution is better than what was known before; the incumbent is then the solution of the reported iteration and nothing better came afterwards; ranges, ratio, flags and counts are those of the visited solutions; an early stop comes only after that many moves in a row without improvement; leaving for too large penalties happens exactly if every infeasible neighbour's penalty exceeds a hundred times every change of the objective; the feasible solutions stored are the feasible ones visited by the loop, and the best one is among them.",
  "all starts, sequences of visited solutions with their scores and trial moves, log intervals and thresholds",
  "The result is accumulated over the whole history of a search and steers the next searches; a counter that is reset too late or a solution that is left out changes it only for particular histories.",
  ["printemps/solver/tabu_search/core/tabu_search_core_state_manager.h: setup, update, update_number_of_effective_updates, update_number_of_ineffective_updates, update_number_of_neighborhoods", "printemps/solver/tabu_search/core/tabu_search_core_result.h", "printemps/solver/tabu_search/core/tabu_search_core.h: satisfy_early_stop_terminate_condition, satisfy_penalty_coefficient_too_large_terminate_condition, run, postprocess", "printemps/utility/range.h"])

p("Files with the values of a solution say what the solution is",
  "A solution can be written to a JSON file by names (one value per element name) or by arrays (one nested array per name). For arrays of any number of dimensions and any sizes, the file by arrays holds each array under its name, nested as its shape says, with every value at its index and nothing else; the file by names holds each value under the name of its element. Both tell the name, the numbers of variables and constraints, the feasibility, the objective value and the total violation of the solution. A reader of the file finds the very values, if the numbers are short enough for the text formats. In a program, the value at an index is the value of that element, and an index with another number of dimensions is refused.",
  "all solutions: numbers, names, shapes and values of arrays; all indices",
  "The file by arrays is made from a text with brackets that are opened and closed while the elements are counted, and which is then parsed; a mistake in the brackets shows up only for particular shapes, a mistake in the numbers only for particular values.",
  ["printemps/multi_array/value_proxy.h: ValueProxy, value, values, operator(), create_json_array, create_json_object", "printemps/solution/named_solution.h: write_json_by_name, write_json_by_array", "printemps/utility/json/json.h: parse_json_object"])

p("The file with the problem is the problem",
  "The problem can be written to a JSON file (the instance of a model). A reader of the file finds, under the names of the variables, the bounds and fixed values, the constraints that are in force and the objective with its direction: an assignment of values to names satisfies the file exactly if it satisfies the model, and the best objective value of the file is that of the model up to the constant of the objective. This holds for any coefficients up to the seventh digit, exactly for coefficients with seven digits, and for any names without quotation marks that the reader does not make equal.",
  "all models: variables, bounds, constraints, coefficients, names; all assignments",
  "A wrong bound, sign or name in the file matters only for particular models and assignments; the file is a description of infinitely many assignments.",
  ["printemps/model/model.h: write_json", "printemps/utility/json/json.h: write_json_object, read_json_object", "printemps/standalone/mps_solver/mps_solver.h: run"])

p("The file with the feasible solutions of a call holds feasible solutions, best first",
  "A call can keep the feasible solutions that its searches visit and write them to a JSON file. Each entry of the file is a solution that was visited: a reader who takes the values of the names (and zero for names that are not mentioned) gets an assignment that satisfies every constraint in force within the tolerance, and the number next to it is the objective of that assignment in seven digits. Entries are ordered with the best objective first in the direction of the user, there are no more of them than the capacity, and no solution that was stored is better than all entries.",
  "all models, all runs of moves of all searches of a call, all names, all capacities, all orders in which the maps of values are written",
  "The file is what remains of thousands of visited solutions after sorting, removing neighbours and cutting; a wrong order or value shows up only for particular histories.",
  ["printemps/solution/solution_archive.h: SolutionArchive, push, write_solutions_json", "printemps/solver/abstract_solver_controller.h: update_feasible_solution_archive", "printemps/solver/solver.h: preprocess", "printemps/model/model.h: export_sparse_solution"])

p("A program gets the problem it states",
  "A user writes a program that creates arrays of variables, expressions and constraints of any shape, builds linear terms from elements, sums and scalar products over arrays and slices with the operators, assigns to and accumulates in elements, sets bounds, switches constraints, and states an objective. The model that results is the problem the program states, read in the ordinary mathematical way: an assignment solves the model exactly when the values, taken by array and index, satisfy all stated bounds and all stated constraints that are switched on, and its objective is the stated objective in the stated direction. A constraint keeps the meaning its terms had when it was stated.",
  "all programs (any sequence of statements, any nesting of terms, any number of arrays up to the limit, any shapes, indices, slices and coefficients), all assignments of values",
  "Tests state a handful of models; a sum over the wrong slice, an operator with a wrong sign or an assignment that keeps an old term gives a different problem only for particular programs.",
  ["printemps/model/model.h: create_variables, create_expressions, create_constraints, minimize, maximize", "printemps/model_component/expression.h, expression_proxy.h, expression_binary_operator.h", "printemps/model_component/constraint_binary_operator.h, constraint_proxy.h", "printemps/model_component/variable_proxy.h: sum, dot, selection, set_bound"])
p("From the program to the report",
  "A user writes a program that states a problem which can be satisfied, and calls the solver on it. The call ends with a report. With the reported values read by array and index: the report says feasible exactly when the values satisfy what the program states; the reported objective is the stated objective at these values; and whenever the search came across values satisfying what the program states, the reported values satisfy it too and are not worse than any of them by more than the tolerance.",
  "all programs, all satisfiable problems within the restrictions, all options, all runs of the search whose moves come from the neighbourhood",
  "The property connects the text of the program with the text of the report through every phase in between: building the model, presolve, extraction of selections, moves, penalties, incumbents and the report.",
  ["printemps/model/model.h", "printemps/solver/solver.h: solve", "printemps/model_component/*.h", "printemps/preprocess/*.h", "printemps/neighborhood/*.h", "printemps/solver/*.h"])

p("An MPS file gets the problem it describes",
  "A user hands over a text file in MPS format with the sections NAME, ROWS, COLUMNS, RHS and BOUNDS, written with any blanks and empty lines, numbers in any decimal notation, several entries on a line, and integer columns marked by INTORG and INTEND. The file is read, and the model that results is the problem the file describes: the variables are the columns by name and in order, the constraints are the rows other than the free one, an assignment solves the model exactly when the values, taken by column name, satisfy every row and lie within the range that the records of the section BOUNDS give, and the objective to be minimised is the free row.",
  "all files with these sections: any number of rows, columns, entries, right-hand sides and bound records in any order within their section, all spellings of numbers, all layouts of blanks; all assignments of values",
  "Example files exercise a few layouts; a wrong pair on a line with two entries, a bound record applied twice, an exponent with the wrong sign or a default bound shows only for particular files.",
  ["printemps/mps/mps.h: MPS::read_mps", "printemps/model/model.h: import_mps", "standalone/mps_solver.h"])
p("From the MPS file to the report",
  "A user hands an MPS file that can be satisfied to the solver. The call ends with a report. With the reported values read by column name: the report says feasible exactly when the values satisfy what the file says; the reported objective is the free row of the file at these values; and whenever the search came across values satisfying the file, the reported values satisfy it too and are not worse than any of them by more than the tolerance.",
  "all files, all satisfiable problems within the restrictions, all options, all runs of the search whose moves come from the neighbourhood",
  "The property connects the text of the file with the report through every phase in between: splitting lines, reading numbers, importing, presolve, extraction of selections, moves, penalties, incumbents.",
  ["printemps/mps/mps.h: MPS::read_mps", "printemps/model/model.h: import_mps", "printemps/solver/solver.h: solve", "standalone/mps_solver.h"])

p("From the command line to the solution file",
  "A user runs the command line program with an MPS file and possibly files with options, fixed values (-f), the variables that may change (-m), initial values, selections and pairs of variables. If something satisfies the MPS file together with what -f and -m ask for, the program writes a solution file. The file has a value for every column. Its first line says =obj= followed by the objective of these values in eleven digits if they satisfy the MPS file and what the flags ask for, and =infeas= otherwise. Whenever the search came across values that satisfy both, the values in the file satisfy both and are not worse than any of them by more than the tolerance.",
  "all argument lists, all contents of the files, all MPS files within the rules of C90, all options within the restrictions, all runs of the search whose moves come from the neighbourhood",
  "The property connects the texts of the files that go in with the text of the file that comes out, through every phase of the program.",
  ["printemps/standalone/mps_solver.h: MPSSolver::run, setup, solve", "printemps/helper/auxiliary_file_reader.h", "printemps/solution/named_solution.h: write_solution", "printemps/option/option.h", "printemps/solver/solver.h: solve"])

p("The status of a call",
  "The status that a call returns, and the status file written from it, say that a feasible solution was found exactly if the reported values satisfy the user's model. For the model before and after the presolve the status gives the numbers of variables and constraints: fixed and mutable variables add up to all, enabled and disabled constraints add up to all, the numbers by kind of variable and by type of constraint add up, the presolve frees no variable and enables no constraint on balance. The number of nonzeros is the number of pairs of an enabled constraint and a variable occurring in it, the means are this number divided by the numbers of variables and constraints, and each mean lies between the smallest and the greatest number.",
  "all models, all presolves, all calls within the restrictions of C78, all runs of the search",
  "The counts come from lists filled at different times and are read through pointers at the end of the call; that they still fit together depends on what every phase in between changes.",
  ["printemps/solver/status.h: Status::setup, add_nonzero_detail, add_variable_detail, add_variable_type_detail, add_constraint_detail, add_constraint_type_detail", "printemps/model/model.h: categorize_variables, categorize_constraints, setup", "printemps/utility/range.h"])

p("A call during which the bounds of variables shrink",
  "Tabu search tightens the bounds of the variables whenever the best feasible solution has just been improved, so that only assignments at least as good remain. A call with this bounding still reports rightly: the result is marked feasible exactly if the reported values satisfy the user's model, the reported objective is the user's objective of these values, and they are at most 1e-5 worse than any solution the search came across. Bounding excludes nothing of interest: every assignment in the ranges at the beginning that is at least as good as the reported solution is still in the ranges at the end. No search ever moves a variable that a bounding has fixed, or moves one out of its new bounds, and with the default restarts the call always returns. The call always returns: every search starts from a solution that respects the bounds of the moment, although the bounds may have shrunk since the solution was stored.",
  "all ordinary models that minimise an objective with integral coefficients and have a solution, all presolves, all runs of Lagrange dual, local search and any number of tabu searches with any penalties, start values and improvements",
  "Whether bounds are tightened, and how often, depends on the history of improvements; every later start value, move and update of the incumbent then works with other bounds than those of the model that was prepared.",
  ["printemps/model/model.h: update_variable_bounds", "printemps/solver/tabu_search/controller/tabu_search_controller.h: update_variable_bounds call in run", "printemps/solver/tabu_search/controller/tabu_search_controller_state_manager.h", "printemps/preprocess/problem_size_reducer.h: remove_redundant_constraint_with_tightening_variable_bound, remove_implicit_fixed_variables"])

p("The tree of the solutions found",
  "During a call the solver keeps the initial solution and every incumbent with which a search ends, drops the infeasible ones found before the first feasible one, and joins those kept by a tree. Whatever the searches find, the solutions kept are pairwise different and each is strictly better than the one before; no index is out of range when the tree grows; the tree is a shortest one that joins all solutions kept, the distance of two being the number of variables in which they differ; the frontier solutions shown are exactly the ends of this tree; the locally optimal solutions shown are exactly those that no solution joined to them beats; the distance shown beside each is that to the incumbent; and the incumbent is among the locally optimal solutions, at distance 0.",
  "all problems, initial solutions and sequences of searches of any length with any solutions visited",
  "The tree is not rebuilt but grows by the solutions added since the last time, and is thrown away once; whether its nodes still stand for the right solutions depends on the whole history.",
  ["printemps/solver/search_tree.h: SearchTree::setup", "printemps/solver/abstract_solver_controller.h: update_incumbent_solution_archive_and_search_tree", "printemps/solution/solution_archive.h: push, remove_infeasible_solutions, update_has_feasible_solution", "printemps/model/model.h: export_dense_solution", "printemps/solver/tabu_search/controller/tabu_search_controller.h: print_frontier_solutions, print_locally_optimal_solutions"])

p("What the user states is what is reported, under the default options for bounding",
  "By default the solver narrows the bounds of variables while it searches. Also then, for a program that states a problem, for an MPS file and for a run of the command line program: with the default restarts the call ends with a report (the program writes a solution file); the report says feasible exactly when the reported values, read by the user's names, satisfy what the user stated; the reported objective is the stated one at these values; and whenever the search came across values that satisfy what the user stated, so do the reported values, which are not worse than any of them by more than the tolerance.",
  "all programs of the modelling interface, all MPS files and all command lines within the rules of C88, C90 and C92 that minimise an objective with integral coefficients, all courses of the search with any number of narrowings of bounds",
  "The narrowing happens after the model was prepared and depends on what the search has found; what is reported must still fit a text written before the call.",
  ["printemps/solver/solver.h: solve", "printemps/option/preprocess_option.h: is_enabled_online_bounding", "printemps/model/model.h: update_variable_bounds", "printemps/standalone/mps_solver.h: MPSSolver::run", "printemps/solver/tabu_search/controller/tabu_search_controller.h: run"])

p("The tables printed during a search are right, and announce every new best solution",
  "Every row that a tabu search, a local search or the Lagrange dual prints shows the objective and the violation of the solution just reached, and, as incumbent, those of a solution met so far whose augmented objective is the best up to the tolerance. A row is marked * only if the solution reached is feasible and strictly better than every feasible one met before, # or @ only if its augmented objective is strictly better than all before. An iteration that reaches a feasible solution better by more than the tolerance than all feasible ones met before prints a row marked *; the first row of a table and every iteration whose number is a multiple of the interval are printed.",
  "all problems in the setting of C66 with numbers on a grid, all sequences of starts, moves, relaxations and changes of penalties, all positions in the tables",
  "A user watches the table to see whether a feasible solution was found and how good it is; each row depends on everything that happened since the call began.",
  ["printemps/solver/tabu_search/core/tabu_search_core.h: print_table_initial, print_table_body", "printemps/solver/local_search/core/local_search_core.h: print_table_initial, print_table_body", "printemps/solver/lagrange_dual/core/lagrange_dual_core.h: print_table_initial, print_table_body", "printemps/solution/incumbent_holder.h: try_update_incumbent", "printemps/model/model.h: sign"])

p("The statistics exported after a call count what happened",
  "After a call, the update count exported for a variable is the number of accepted moves that altered it; the violation count exported for a constraint is the number of accepted moves after which it was violated by at least 1e-5, and 0 for a constraint that was disabled; the exported penalty coefficient is the larger one of the two in force when the call ended. Each array is found under its name, element by element, provided that the names differ.",
  "all problems in the setting of C66, all sequences of starts, moves, relaxations and changes of penalties, all random numbers, all arrays of variables and constraints with different names",
  "The counts accumulate over a whole call and are kept incrementally by a cache of violated constraints; a test sees the counts of a few short calls.",
  ["printemps/solver/memory.h: setup, update", "printemps/solver/solver.h: export_named_update_counts, export_named_violation_counts, export_named_penalty_coefficients", "printemps/model/model.h: export_update_count_proxies, export_violation_count_proxies, export_local_penalty_coefficient_proxies"])

p("The summaries printed between the searches are right",
  "Between two searches, the variables listed as seldom (often) updated are the up to six altered least (most) often so far, in this order, each with its share of all alterations; the constraints listed as seldom (often) satisfied are the up to six after the most (fewest) moves violated, in this order, each with the share of the moves after which it was satisfied. If the best solution of the last search violates a constraint, the number printed is that of all constraints it violates and the lines are the first ten of them with their violations; otherwise nothing is printed.",
  "all problems in the setting of C66, all sequences of starts, moves, relaxations and changes of penalties, all lists of variables and constraints, up to 10^10 alterations",
  "The lists depend on counts kept over a whole call and on violations stored in constraints that are updated in part only; a test sees a few short calls.",
  ["printemps/solver/tabu_search/controller/tabu_search_controller.h: print_variable_update_frequency, print_constraint_violation_frequency, print_violative_constraints", "printemps/solver/memory.h: update", "printemps/model/model.h: export_dense_solution, update_dependent_variables_and_disabled_constraints"])

p("A function called back sees the truth after each tabu search, and what it writes into its options takes effect",
  "A function set with set_callback is called exactly once after each tabu search, in order, and at most iteration_max times. Each time the incumbents it is given tell the truth about everything met until then: a feasible solution is known exactly if a solution of the user's model was met, and then the one known is such a solution with its own objective and at most 1e-5 worse than any met. A function that only reads does not change the call. The searches go on exactly until the time is over, the number of searches is reached, the target is reached or the incumbent is found optimal. What it writes into the options it is given influences the searches that follow.",
  "all functions (with any memory), all ordinary models in the setting of C78, everything the searches, the clock and the controller may do",
  "The function is arbitrary code that is run between searches of any number and length; a test calls it once on an empty model.",
  ["printemps/model/model.h: set_callback, callback", "printemps/solver/tabu_search/controller/tabu_search_controller.h: run, satisfy_*_terminate_condition", "printemps/solution/incumbent_holder.h: IncumbentHolder"])

p("A model is solved at most once, and a model that was initialized is a new one",
  "The solver refuses a model exactly if it was called with it before, successfully or not, since the model was made or initialized, and a refused call leaves the model as it is. Each element to which no name was given gets the name of its array followed by its position, and each name given is kept. After initialize() the model is as a new one: nothing of what was built before is left, and another problem can be built and solved.",
  "all histories of statements, names given, calls of the solver and initialize() on one model object, whatever the calls of the solver do",
  "The histories are unbounded and the fault needs a certain order of building, initializing and building again; the tests initialize empty models.",
  ["printemps/model/model.h: initialize, create_variable, create_variables, create_expression, create_constraint, setup_unique_names, is_solved, set_is_solved", "printemps/solver/solver.h: solve", "printemps/preprocess/verifier.h: verify_problem"])

p("The table of the size of the problem adds up",
  "The table printed after the setup shows, before the parentheses, the numbers of variables and constraints of the problem as given and, inside of them, how many variables are still free and how many constraints are still in use. Both the rows for the senses of the variables and those for the comparisons and the types of the constraints add up to the number in their head row, before and inside of the parentheses, and the presolve never makes the numbers larger.",
  "all models, with any constraints switched off and variables fixed, all options of the presolve and all its outcomes",
  "The numbers are those of two different moments of the setup and depend on every reduction between them; the tests only call the print functions.",
  ["printemps/model/model.h: print_number_of_variables, print_number_of_constraints, categorize_constraints, categorize_variables", "printemps/solver/solver.h: setup"])

p("The trend file tells the truth about every search",
  "With output.is_enabled_write_trend, the file trend.txt gets one row for each tabu search, numbered in order. The global objective and violation in a row are the user's objective value and the violation of a solution met so far whose augmented objective is the best up to the tolerance, and the local ones those of a solution met in this very search.",
  "all problems, minimizations and maximizations, all histories of Lagrange dual, local search and any number of tabu searches, with any changes of the penalty coefficients between them",
  "The histories are unbounded; the file is written from incumbents that outlive the searches, and no test reads it.",
  ["printemps/solver/tabu_search/controller/tabu_search_controller_logger.h: write_log", "printemps/solver/tabu_search/controller/tabu_search_controller.h: run, preprocess", "printemps/solution/incumbent_holder.h: reset_local_augmented_incumbent, try_update_incumbent"])

p("Without presolve and selections the searches work on the problem as it was built",
  "With preprocess.is_enabled_presolve switched off and preprocess.selection_mode Off, the searches of a call that starts work on the user's own problem: the same variables with the same bounds, kinds and fixings, the same constraints, all still enabled or disabled as the user left them, no dependent variables but the user's, the same objective; so the same assignments are feasible and have the same objective. Initial values within the bounds are kept; others are kept or moved to a bound; fixed variables keep their values.",
  "all models, all other options, all initial values",
  "A switched-off stage that still touches the model only shows on the problems that have the structure it looks for (e.g. parity equations).",
  ["printemps/model/model.h: setup", "printemps/preprocess/verifier.h: verify_and_correct_binary_variables_initial_values, verify_and_correct_integer_variables_initial_values", "printemps/option/preprocess_option.h: is_enabled_presolve"])

p("The measure on which PDLP decides about restarts is a distance from a solution",
  "The normalized gap, which decides when the solver of the relaxation restarts and whether from the current or the averaged point, is never negative; it is zero at every solution of the relaxation with its multipliers, and only there.",
  "all linear relaxations, all points and multipliers, all positive weights and radii",
  "A wrong gap only slows convergence down; no expected value is known for it, and a test would have to compare it with the distance from solutions of arbitrary LPs.",
  ["printemps/solver/pdlp/core/pdlp_core_state_manager.h: compute_normalized_gap, compute_weighted_norm, update_restart_information", "printemps/model/model.h: export_lp_instance"])

p("A call without presolve tells the truth about the user's problem, also with fractional coefficients",
  "With presolve and the extraction of selections switched off, the reported values respect the bounds and fixings of the user's variables; the reported constraint values, violations, objective, total violation and feasibility mark are those of the user's problem for the reported values; and the reported values are the best the searches came across, up to the documented tolerance. The call throws exactly if an initial value is out of range and either belongs to a fixed variable or may not be corrected.",
  "all problems with integer and 0/1 variables, fractional coefficients, fixed variables and disabled constraints included; all sequences of moves, penalty updates and restarts",
  "A test runs one problem along one search path; the claim is about every problem and every path, and about the composition of setup, correction of initial values, incremental evaluation, incumbents and report.",
  ["printemps/model/model.h: setup", "printemps/solver/solver.h: solve", "printemps/solution/incumbent_holder.h: try_update_incumbent", "printemps/solution/dense_solution.h"])

p("The restarts of PDLP come again and again, from the better point, and because of progress",
  "No inner loop of the solver of the relaxation is endless: whatever the gaps are, there is another restart, if pdlp.restart_threshold_artificial is below 1. A restart takes place in a multiple of pdlp.restart_check_interval, at least three iterations after the last one, and from the point with the smaller gap. If it is not due to the length of the loop, the gap is below a threshold times that of the last restart.",
  "all thresholds, all sequences of gaps of the current and the averaged point, all iterations",
  "The sequence of gaps depends on the instance; a test sees one sequence, finitely long. A wrong reference gap changes the speed only, so that no expected value reveals it.",
  ["printemps/solver/pdlp/core/pdlp_core_state_manager.h: update_restart_information, setup_new_inner_loop, skip_restart", "printemps/solver/pdlp/core/pdlp_core.h: run", "printemps/option/pdlp_option.h: restart_threshold_sufficient, restart_threshold_necessary, restart_threshold_artificial, restart_check_interval"])

p("The solver of the relaxation, with the restarts its own gaps lead to, ends, stays within bounds and restarts from the better point",
  "A run of the solver of the relaxation ends, after at most pdlp.iteration_max iterations, whatever the gaps it computes and the restarts they lead to. Its points respect the bounds, and with tolerance 0 the verdict OPTIMAL means that the reported objective is the optimum. A restart takes place in a multiple of pdlp.restart_check_interval, at least three iterations after the last one, and continues from the one of the current and the averaged point whose normalized gap is smaller, if both differ from the point of the last restart.",
  "all linear programs with consistent data, all options within their ranges, all thresholds, all times read from the clock",
  "Which restarts take place depends on the gaps of all points so far; a test sees one sequence of points. Termination and bounds have to hold for every sequence.",
  ["printemps/solver/pdlp/core/pdlp_core.h: run", "printemps/solver/pdlp/core/pdlp_core_state_manager.h: update_restart_information, compute_normalized_gap, update_restart_solution, setup_new_inner_loop"])

out = os.path.join(os.path.dirname(os.path.abspath(__file__)), "..", "properties.jsonl")
with open(out, "w") as f:
    for x in P:
        f.write(json.dumps(x, ensure_ascii=False) + "\n")
print(len(P))
