{"id": "C01", "title": "Symbol names identify (base name, time index)", "statement": "Two time-aware symbols whose base names or time indices differ print different names (`x_t`, `x_t+1`, `x_t-3`, `x_ss`), and the `safe_name` (with p/m for +/-) is also distinct, so no two different model variables can be conflated by printing, code generation or by-name look-ups.", "quantifier": "all base names (any string) and all time indices (every integer and the steady state)", "why_tests_cant": "Names are built from unbounded strings and integers; a collision is a coincidence of two inputs that sampling will not hit.", "anchors": ["gEconpy/classes/time_aware_symbol.py: TimeAwareSymbol._create_name_from_time_index, name, safe_name"]}
{"id": "C02", "title": "Stepping through time is invertible; the steady state is absorbing only via errors", "statement": "For a symbol with an integer index, step_forward and step_backward are inverse and commute with set_t/to_ss; for a steady-state symbol stepping does not silently return a dated symbol (it raises), and to_ss/exit_ss round-trip to index 0.", "quantifier": "all symbols, all integer indices, any number of steps", "why_tests_cant": "Unbounded indices and step counts.", "anchors": ["gEconpy/classes/time_aware_symbol.py: TimeAwareSymbol.step_forward, step_backward, to_ss, exit_ss, set_t"]}
{"id": "C03", "title": "String/sympy conversion of a SymbolDictionary round-trips", "statement": "Converting a dictionary of sympy keys to string keys and back with to_string / to_sympy restores every symbol with its base name, time index and kind (variable vs parameter), and its value.", "quantifier": "all dictionaries of time-aware symbols and parameters, any base name and any time index", "why_tests_cant": "Key strings are parsed back by splitting on underscores; correctness is a statement about all names and indices.", "anchors": ["gEconpy/classes/containers.py: SymbolDictionary.to_string, to_sympy, safe_string_to_sympy, string_keys_to_sympy, symbol_to_string"]}
{"id": "C04", "title": "A SymbolDictionary never mixes string and sympy keys", "statement": "After any sequence of dictionary operations (construction, item assignment, update, merge, conversion) all keys of a SymbolDictionary are strings or all are sympy symbols, agreeing with its is_sympy flag; offending operations raise KeyError.", "quantifier": "all finite operation histories", "why_tests_cant": "The invariant is over histories of mixed operations, including inherited dict methods.", "anchors": ["gEconpy/classes/containers.py: SymbolDictionary.__init__, __setitem__, update, __or__, to_sympy, to_string"]}
{"id": "C05", "title": "Copies and merges do not change their operands", "statement": "copy() yields an independent dictionary: no later operation on the copy (nor `a | b`) changes what the original contains or how the original converts between string and sympy keys.", "quantifier": "all dictionaries and all later operations on the copy", "why_tests_cant": "Aliasing of shared metadata only shows through particular later operations on particular key kinds.", "anchors": ["gEconpy/classes/containers.py: SymbolDictionary.copy, __or__, _step_dict_keys, _clean_update"]}
{"id": "C06", "title": "Moving a dictionary to the steady state keeps exactly the last value per variable", "statement": "to_ss() returns a dictionary all of whose variable keys are steady-state symbols, parameters are untouched, every base name is kept, and if several dated versions of a variable are present the last inserted value wins.", "quantifier": "all dictionaries of dated symbols", "why_tests_cant": "Collisions depend on the combination and insertion order of keys.", "anchors": ["gEconpy/classes/containers.py: SymbolDictionary.to_ss, _step_dict_keys"]}
{"id": "C07", "title": "Time-index expansion leaves only lags/leads of at most one period", "statement": "After expanding a parsed model's deep time indices, every variable in every equation of every block is dated t-1, t, t+1 or ss.", "quantifier": "all models: any number of blocks, equations, variables, nesting depth and lag/lead length", "why_tests_cant": "Unbounded expression trees and lag lengths.", "anchors": ["gEconpy/parser/transform/expand_time_indices.py: expand_block_time_indices, expand_model_time_indices, TimeIndexReplacer"]}
{"id": "C08", "title": "Time-index expansion preserves the meaning of the block", "statement": "A path of the original variables solves the original block's equations at every date if and only if it extends (by lagged/led auxiliary paths) to a path solving the expanded block's equations at every date, and the extension is unique on the auxiliary variables.", "quantifier": "all blocks whose user variables do not use the auxiliary names, all paths over the integers, all dates", "why_tests_cant": "Quantifies over all real-valued infinite paths and all equations.", "anchors": ["gEconpy/parser/transform/expand_time_indices.py: DeepTimeIndexCollector, create_lag_chain, create_lead_chain, expand_block_time_indices"]}
{"id": "C09", "title": "Time-index expansion is idempotent and inert on shallow blocks", "statement": "A block without deep indices is returned unchanged; expanding an expanded block again changes nothing.", "quantifier": "all blocks", "why_tests_cant": "All trees and all index sets.", "anchors": ["gEconpy/parser/transform/expand_time_indices.py: expand_block_time_indices, expand_model_time_indices"]}
{"id": "C10", "title": "Time-index expansion keeps the system square", "statement": "Expansion adds exactly one identity for every auxiliary variable it introduces into the model, so a model with as many equations as variables remains so, including when several blocks refer to the same deep lag.", "quantifier": "all models, any number of blocks sharing deep lags", "why_tests_cant": "The failure needs two blocks with the same deep variable; count equality is over all models.", "anchors": ["gEconpy/parser/transform/expand_time_indices.py: expand_model_time_indices"]}
{"id": "C11", "title": "Printing an equation and parsing it again gives the same equation", "statement": "For every expression of the GCN language, re-parsing the printed text with the GCN grammar yields an expression with the same meaning.", "quantifier": "all expression trees", "why_tests_cant": "Precedence/associativity mistakes only show on particular nestings; the set of trees is infinite.", "anchors": ["gEconpy/parser/ast/printer.py: GCNPrinter", "gEconpy/parser/grammar/expressions.py: EXPR"]}
{"id": "C12", "title": "Stepping an equation shifts every date in it by one", "statement": "step_equation_forward(eq) evaluated on a path equals eq evaluated on the path shifted by one period (and backward is the inverse), parameters untouched; equations containing steady-state symbols are rejected rather than silently mis-dated.", "quantifier": "all expressions, all paths", "why_tests_cant": "The substitution is a single sequential-order dict whose clash behaviour depends on which dates occur.", "anchors": ["gEconpy/utilities.py: step_equation_forward, step_equation_backward"]}
{"id": "C13", "title": "Converting an equation to the steady state evaluates it on constant paths", "statement": "eq_to_ss(eq) has no dated variable, and its value at steady-state values s equals the value of eq on the path constantly equal to s.", "quantifier": "all expressions, all steady-state values", "why_tests_cant": "All expression trees and real values.", "anchors": ["gEconpy/utilities.py: eq_to_ss"]}
{"id": "C14", "title": "diff_through_time is the derivative of the whole discounted objective", "statement": "diff_through_time(L, x_t, beta) equals the derivative with respect to x_t of the infinite discounted sum of L (every period in which x_t can appear is included, none is counted twice and each is discounted by the right power of a constant discount factor).", "quantifier": "all polynomial-type period objectives with finitely many lags, all controls and dates, all paths, all horizons", "why_tests_cant": "Needs all lag lengths and all horizon lengths.", "anchors": ["gEconpy/utilities.py: diff_through_time", "gEconpy/model/block/basic.py: Block._compute_foc"]}
{"id": "C15", "title": "Flattening a substitution dictionary resolves every definition or reports a cycle", "statement": "flatten_substitution_dict returns values that mention none of the (other) defined symbols, each flattened value is equal to the original one under every assignment satisfying the definitions, and it raises ValueError exactly when definitions are mutually circular.", "quantifier": "all finite substitution dictionaries over all expressions", "why_tests_cant": "Dependency graphs of any size and shape, in any order.", "anchors": ["gEconpy/utilities.py: flatten_substitution_dict"]}
{"id": "C16", "title": "Block and model validation report exactly the duplicates", "statement": "validate_block/validate_model report an error for a name if and only if that control, shock, calibrated parameter, or block name is declared more than once.", "quantifier": "all blocks and models", "why_tests_cant": "Any declaration lists of any length.", "anchors": ["gEconpy/parser/ast/validation.py: validate_block, validate_model, full_validation"]}
{"id": "C17", "title": "preprocess(validate=True) rejects semantically invalid files", "statement": "If validation finds errors, preprocess(..., validate=True) raises GCNSemanticError as documented.", "quantifier": "all source models with at least one validation error", "why_tests_cant": "The claim covers every invalid input.", "anchors": ["gEconpy/parser/preprocessor.py: preprocess", "gEconpy/parser/ast/validation.py: ErrorCollector usage"]}
{"id": "C18", "title": "Undefined-variable warnings are exactly the used-but-undefined names", "statement": "check_undefined_variables warns about a name iff it occurs in some equation of the model but is nowhere declared (control, shock, left-hand side or definition), each once.", "quantifier": "all models", "why_tests_cant": "Arbitrary expression trees and declaration sets.", "anchors": ["gEconpy/parser/ast/validation.py: check_undefined_variables, check_undefined_parameters"]}
{"id": "C19", "title": "Parameters of several blocks are merged without loss", "statement": "Loading either raises DuplicateParameterError because two blocks define the same parameter, or the merged parameter dictionary contains exactly every parameter of every block with its value.", "quantifier": "all lists of blocks", "why_tests_cant": "Any number of blocks/parameters.", "anchors": ["gEconpy/parser/loader.py: _block_dict_to_param_dict"]}
{"id": "C20", "title": "Every equation of a block gets its own number and stays in its component", "statement": "Converting a parsed block numbers equations consecutively without gaps or repeats across definitions, objective, constraints, identities and calibration, and each equation (with its flags and multiplier) is found under exactly the component it was written in.", "quantifier": "all parsed blocks", "why_tests_cant": "Any component sizes.", "anchors": ["gEconpy/parser/transform/to_block.py: ast_block_to_block, _extract_flags"]}
{"id": "C21", "title": "Calibration equations are sorted into exactly one parameter class", "statement": "Each non-distribution calibration equation ends as exactly one of: numeric parameter, deterministic (computed) parameter, calibrating equation; nothing is lost or double counted, and duplicate definitions raise.", "quantifier": "all calibration lists", "why_tests_cant": "Combinations of forms and duplicates.", "anchors": ["gEconpy/model/block/basic.py: Block._get_param_dict_and_calibrating_equations"]}
{"id": "C22", "title": "Every constraint of an optimisation block enters the Lagrangian with its own multiplier", "statement": "After building the Lagrangian, each constraint that enters it has its own, distinct, recorded multiplier (the user-given one when given).", "quantifier": "all blocks: any mix of named and unnamed multipliers, any number of definitions/objectives/constraints", "why_tests_cant": "Index arithmetic only fails for particular mixes and positions.", "anchors": ["gEconpy/model/block/basic.py: Block._build_lagrangian"]}
{"id": "C23", "title": "Solving a block yields identities + constraints + objective + one first-order condition per control", "statement": "solve_optimization produces exactly the identities, the non-excluded constraints, the objective(s) and one first-order condition per control, each first-order condition being diff_through_time of the Lagrangian.", "quantifier": "all blocks", "why_tests_cant": "Any component sizes and flags.", "anchors": ["gEconpy/model/block/basic.py: Block.solve_optimization, simplify_system_equations"]}
{"id": "C24", "title": "Cobb-Douglas closed-form first-order conditions equal the generic ones", "statement": "On positive inputs the closed-form condition used for a recognised Cobb-Douglas production constraint is equal to the derivative of the Lagrangian.", "quantifier": "all numbers of factors, exponents, positive input values", "why_tests_cant": "Real-valued identity over an unbounded number of factors.", "anchors": ["gEconpy/model/block/cobb_douglas.py"]}
{"id": "C25", "title": "CES closed-form first-order conditions equal the generic ones", "statement": "On positive inputs the closed-form condition used for a recognised CES production constraint equals the derivative of the Lagrangian whenever the constraint holds.", "quantifier": "all shares, elasticities and positive inputs", "why_tests_cant": "Real-valued identity.", "anchors": ["gEconpy/model/block/ces.py"]}
{"id": "C26", "title": "try_reduce eliminates variables without changing the remaining model", "statement": "Each variable eliminated by try_reduce is removed together with exactly the equations that define it; the remaining equations do not mention it at any date and have the same solutions for the remaining variables.", "quantifier": "all systems and try-reduce lists", "why_tests_cant": "Occurrence patterns over dates are unbounded.", "anchors": ["gEconpy/model/simplification.py: simplify_tryreduce, reduce_variable_list"]}
{"id": "C27", "title": "Constant simplification substitutes only genuine constants", "statement": "simplify_constants removes a variable only when an equation pins it to a number, and solutions of the remaining system with that constant are exactly the solutions of the original.", "quantifier": "all systems", "why_tests_cant": "Unbounded systems.", "anchors": ["gEconpy/model/simplification.py: simplify_constants"]}
{"id": "C28", "title": "Variables are classified by the dates at which they occur", "statement": "classify_variables_by_timing puts a symbol in the lagged/current/lead list exactly when it occurs with date -1/0/+1, sorts each list by natural order, and rejects any other date.", "quantifier": "all sets of symbols", "why_tests_cant": "Any set of names/indices.", "anchors": ["gEconpy/model/timing.py: classify_variables_by_timing, natural_sort_key"]}
{"id": "C29", "title": "The stacked Jacobian contains every derivative", "statement": "The sparse stacked Jacobian assembled for the perfect-foresight problem equals the block-tridiagonal matrix of per-period Jacobians, for every trajectory.", "quantifier": "all horizons, block sizes and per-period Jacobian values", "why_tests_cant": "Entries dropped depend on values that vanish in one period and not in others.", "anchors": ["gEconpy/model/perfect_foresight/assemble.py: assemble_stacked_jacobian"]}
{"id": "C30", "title": "Perfect-foresight residuals use the boundary conditions exactly at the ends", "statement": "The stacked residual at period t uses x_{t-1}, x_t, x_{t+1} with the initial condition only at t=0 and the terminal condition only at t=T-1.", "quantifier": "all horizons T>=1 and all trajectories", "why_tests_cant": "All horizons and off-by-one at both ends.", "anchors": ["gEconpy/model/perfect_foresight/solve.py: _evaluate_periods"]}
{"id": "C31", "title": "Shock and parameter paths are placed in the right rows and columns", "statement": "The matrix handed to the solver has, for each named shock (parameter), the user's path (value) in its column in order and the default elsewhere; unknown names and wrong lengths raise ValueError.", "quantifier": "all name lists, paths and horizons", "why_tests_cant": "All combinations.", "anchors": ["gEconpy/model/perfect_foresight/solve.py: _build_shock_matrix, _build_param_matrix", "gEconpy/model/perfect_foresight/validation.py"]}
{"id": "C32", "title": "Monotone line search never increases the merit function", "statement": "With Armijo back-tracking, every accepted iterate satisfies sufficient decrease, so the merit function never increases along the iterations of the solver; search directions handed over never have positive slope.", "quantifier": "all residual functions, starting points and iteration counts", "why_tests_cant": "All functions and histories.", "anchors": ["gEconpy/solvers/sparse_root/globalization.py: ArmijoBacktracking", "gEconpy/solvers/sparse_root/direction.py", "gEconpy/solvers/sparse_root/line_search.py"]}
{"id": "C33", "title": "Non-monotone line search stays below the worst recent merit of the same solve", "statement": "Along one solve every accepted iterate's merit is at most the maximum merit of the last M iterates of that solve (hence never above the starting merit); reusing a solver object does not leak the history of an earlier solve.", "quantifier": "all functions, all histories including repeated solves", "why_tests_cant": "Needs histories over solver re-use.", "anchors": ["gEconpy/solvers/sparse_root/globalization.py: NonmonotoneBacktracking", "gEconpy/solvers/sparse_root/line_search.py: LineSearchSolver.init"]}
{"id": "C34", "title": "Trust-region steps stay inside the trust region and the radius stays in bounds", "statement": "Every dogleg / Steihaug step has norm at most the current radius, and the radius stays positive and at most the configured maximum whatever sequence of good and bad steps occurs.", "quantifier": "all iteration histories", "why_tests_cant": "All histories.", "anchors": ["gEconpy/solvers/sparse_root/dogleg.py", "gEconpy/solvers/sparse_root/gauss_newton.py"]}
{"id": "C35", "title": "The root finder terminates and reports honestly", "statement": "The solver loop performs at most maxiter iterations, returns the last iterate, and reports success only when its convergence test held for the returned iterate.", "quantifier": "all step functions and limits", "why_tests_cant": "All step behaviours, including non-converging ones.", "anchors": ["gEconpy/solvers/sparse_root/sparse_root.py: _root_find_core", "gEconpy/solvers/sparse_root/base.py: default_check_convergence"]}
{"id": "C36", "title": "Backward-looking and policy solutions satisfy the model's matrix equations", "statement": "The T and R returned for a purely backward-looking model satisfy A + B T = 0 and B R + D = 0, and for a general solution with transition T, the impact matrix R = -(C T + B)^{-1} D makes x_t = T x_{t-1} + R e_t solve A x_{t-1} + B x_t + C E x_{t+1} + D e_t = 0 along every simulated path.", "quantifier": "all dimensions, matrices with the stated invertibility, all shocks and dates", "why_tests_cant": "All dimensions and values.", "anchors": ["gEconpy/solvers/backward_looking.py", "gEconpy/solvers/shared.py"]}
{"id": "C37", "title": "Impulse responses superpose", "statement": "The joint response to several shocks is the sum of the individual-shock responses, responses scale linearly in the shock size, and a zero shock yields a zero response.", "quantifier": "all T, R, horizons and shock specifications", "why_tests_cant": "All horizons/dimensions.", "anchors": ["gEconpy/model/simulate.py: _simulate_linear_system, impulse_response_function"]}
{"id": "C38", "title": "Impulse-response arguments: exactly one shock specification is required", "statement": "impulse_response_function rejects, with an explanatory error, calls that give more than one shock specification and accepts documented call patterns.", "quantifier": "all combinations of the optional arguments", "why_tests_cant": "All option combinations with documented defaults.", "anchors": ["gEconpy/model/simulate.py: _validate_irf_shock_arguments"]}
{"id": "C39", "title": "Linearisation reorders equations and variables by a permutation", "statement": "The orderings used in the linearised system are permutations: no equation or variable is lost or duplicated and each lands in the group of its timing class.", "quantifier": "all timing patterns", "why_tests_cant": "All incidence patterns.", "anchors": ["gEconpy/model/perturbation.py: linearize_model"]}
{"id": "C40", "title": "Blanchard-Kahn check", "statement": "The check reports success exactly when the number of unstable roots equals the number of forward-looking variables and names the right failure otherwise.", "quantifier": "all eigenvalue lists and tolerances", "why_tests_cant": "All lists.", "anchors": ["gEconpy/model/perturbation.py: check_bk_condition"]}
{"id": "C41", "title": "Orphan and superfluous parameters are reported exactly", "statement": "Model building rejects a model iff some parameter used in an equation has no value/definition, or some defined parameter is used nowhere (subject to the documented switch).", "quantifier": "all equations and parameter dictionaries", "why_tests_cant": "All combinations.", "anchors": ["gEconpy/model/build.py: check_for_orphan_params, check_for_extra_params, validate_results"]}
{"id": "C42", "title": "Suggestions are sound, bounded and sorted", "statement": "find_similar_names returns at most max_results candidates, all from the candidate list and above the threshold, best first, and nothing when the name itself is a candidate.", "quantifier": "all names and candidate lists", "why_tests_cant": "All inputs.", "anchors": ["gEconpy/parser/suggestions.py: find_similar_names"]}
{"id": "C43", "title": "No declared component of a block is lost in parsing", "statement": "Every statement the user writes in a block appears in the parsed block, including when a component (e.g. identities) is written twice.", "quantifier": "all sequences of components", "why_tests_cant": "All sequences.", "anchors": ["gEconpy/parser/grammar/blocks.py: _build_block"]}
{"id": "C44", "title": "Assumption blocks give each variable exactly the declared assumptions", "statement": "Every variable listed under an assumption carries it (unit_interval also implies positive), in addition to real, and carries no undeclared assumption.", "quantifier": "all assumption blocks", "why_tests_cant": "All sequences of statements.", "anchors": ["gEconpy/parser/grammar/special_blocks.py: _build_assumptions"]}
{"id": "C45", "title": "Steady-state propagation never overwrites user values and only adds implied ones", "statement": "propagate_steady_state_through_identities keeps every user-provided value and each added value makes its identity hold.", "quantifier": "all user dictionaries and identity systems", "why_tests_cant": "Fixpoint over unbounded systems.", "anchors": ["gEconpy/model/steady_state.py: propagate_steady_state_through_identities"]}
{"id": "C46", "title": "Distribution number expressions are evaluated arithmetically", "statement": "A numeric expression inside a prior declaration evaluates to its arithmetic value.", "quantifier": "all sums/products/quotients/differences of numbers", "why_tests_cant": "All nestings of operators.", "anchors": ["gEconpy/parser/grammar/statements.py: _evaluate_number_expr"]}
{"id": "C47", "title": "Autocovariances use the covariance the user supplied", "statement": "autocovariance(…) honours the shock standard deviations/covariances the caller passes, and lag-k autocovariance is T^k Sigma with Sigma = T Sigma T' + R Q R'.", "quantifier": "all T,R,Q,k", "why_tests_cant": "All dimensions and lags.", "anchors": ["gEconpy/model/statistics/covariance.py: autocovariance_matrix, _compute_autocovariance_matrix, build_Q_matrix"]}
{"id": "C48", "title": "First-order conditions account for every lag of a control", "statement": "The first-order condition the model uses for a control x is the derivative of the whole discounted Lagrangian of the block the user wrote, including terms where x occurs with a lag or lead of two or more periods.", "quantifier": "all optimisation blocks, including those with deep lags of controls", "why_tests_cant": "Ranges over all objectives/constraints and all lag depths.", "anchors": ["gEconpy/parser/transform/to_block.py: ast_block_to_block", "gEconpy/parser/transform/expand_time.py: expand_block_time_indices", "gEconpy/model/block/basic.py: Block.solve_optimization"]}
{"id": "C49", "title": "Block definitions are eliminated at every date", "statement": "After solving a block, no variable introduced in its definitions component occurs in any equation handed to the model, whatever date it was used with, and the substituted equations have the same value on every path along which the definitions hold.", "quantifier": "all blocks with definitions, all dates at which a defined name is used", "why_tests_cant": "All blocks and all dates.", "anchors": ["gEconpy/model/block/basic.py: Block.solve_optimization, Block._get_and_record_all_variables"]}
{"id": "C50", "title": "Simplifying block equations keeps the model's solutions", "statement": "Eliminating generated multipliers from a solved block (simplify_system_equations, default on) leaves a system that every solution of the unsimplified system satisfies, at every date.", "quantifier": "all solved blocks, all paths", "why_tests_cant": "All systems of equations, all orders in which sympy returns multipliers.", "anchors": ["gEconpy/model/block/basic.py: Block.simplify_system_equations", "gEconpy/utilities.py: expand_subs_for_all_times"]}
{"id": "C51", "title": "Conversion to sympy keeps the value of every expression", "statement": "Converting a parsed expression/equation to sympy yields an expression that has the same value at every date on every path and the same dated variables; an equation becomes lhs = rhs with the same two values.", "quantifier": "all parsed expressions and paths", "why_tests_cant": "Structural induction over all expressions.", "anchors": ["gEconpy/parser/transform/to_sympy.py: ast_to_sympy, equation_to_sympy"]}
{"id": "C52", "title": "The model's variables and shocks are those of its blocks", "statement": "The variable and shock lists of a loaded model contain every variable (shock) of every block exactly once, at date t, sorted by name, no variable is a shock, and every dated symbol occurring in a model equation belongs to one of the two lists.", "quantifier": "all parsed models", "why_tests_cant": "must hold for every combination of blocks, dates, multipliers and shocks", "anchors": ["gEconpy/parser/loader.py: _block_dict_to_variables_and_shocks", "gEconpy/model/block/basic.py: Block._get_variable_list"]}
{"id": "C53", "title": "Every block contributes its equations exactly once", "statement": "The equations of a loaded model are those of its blocks in the order written; the steady-state block contributes none and no block is lost.", "quantifier": "all parsed models", "why_tests_cant": "ranges over all block names and all orders of blocks", "anchors": ["gEconpy/parser/transform/to_block.py: ast_model_to_block_dict", "gEconpy/parser/loader.py: ast_model_to_primitives"]}
{"id": "C54", "title": "Steady-state values are the ones the user wrote", "statement": "The steady-state dictionary has one entry per identity of the steady-state block(s), fully substituted, and wherever the block's equations hold each entry equals its variable.", "quantifier": "all steady-state blocks and all valuations", "why_tests_cant": "ranges over all chains of definitions and all values", "anchors": ["gEconpy/parser/loader.py: _extract_ss_solution_dict", "gEconpy/utilities.py: flatten_substitution_dict"]}
{"id": "C55", "title": "Shocks are linked to the priors of the parameters they use", "statement": "A shock declared with a distribution whose keyword names a parameter is linked to that parameter's prior whenever the model declares one, wherever it is declared.", "quantifier": "all models, all orders of blocks", "why_tests_cant": "depends on the order in which blocks and statements are written", "anchors": ["gEconpy/parser/loader.py: _create_shock_distribution, ast_model_to_primitives"]}
{"id": "C56", "title": "tryreduce names select exactly the named variables", "statement": "The variables marked for elimination are exactly the model variables named in the tryreduce block, in that order.", "quantifier": "all name lists and all variable lists", "why_tests_cant": "must hold for all names", "anchors": ["gEconpy/parser/loader.py: _extract_tryreduce"]}
{"id": "C57", "title": "Parameters of a run are consistent in every period", "statement": "Model.parameters(**updates) returns for each free parameter the updated value or the default, for each deterministic parameter its formula at those values, and rejects unknown names; in a perfect-foresight run the parameters used in period t are Model.parameters at the path values of period t.", "quantifier": "all free/deterministic parameter sets, all updates, all parameter paths and horizons", "why_tests_cant": "which deterministic parameters depend on a path is a property of the whole model, tests use models without deterministic parameters", "anchors": ["gEconpy/model/model.py: Model.parameters", "gEconpy/model/perfect_foresight/solve.py: _build_param_matrix"]}
{"id": "C58", "title": "Boundary conditions are the user's, else the steady state", "statement": "The initial (terminal) vector of a perfect-foresight run holds for every variable the value the user gave under K or K_ss, and otherwise the steady-state value at the parameters of the first (last) period.", "quantifier": "all condition dictionaries, steady states, variable orders and parameter paths", "why_tests_cant": "must hold for every subset of given variables and every order of names", "anchors": ["gEconpy/model/perfect_foresight/solve.py: solve_perfect_foresight, _normalize_condition_keys, _ss_dict_to_array, _extract_boundary_param_kwargs"]}
{"id": "C59", "title": "The piecewise initial guess moves monotonically between the two steady states", "statement": "make_piecewise_x0 returns rows that are averages of the two steady states with weights non-decreasing in time, 0 before the transition and 1 after it.", "quantifier": "all lengths, transition starts, transition lengths and values", "why_tests_cant": "boundary cases where the transition runs past the sample", "anchors": ["gEconpy/model/perfect_foresight/solve.py: make_piecewise_x0"]}
{"id": "C60", "title": "Levenberg-Marquardt keeps its damping in bounds and strictly lowers the merit", "statement": "Whatever the linear solver returns or raises, the damping parameter stays in [min_lam, max_lam], each accepted step strictly lowers the merit and a refused step leaves the iterate unchanged; with an exactly solved system the predicted reduction is positive at every non-stationary point.", "quantifier": "all residual functions, starting points, linear-solver behaviours and iteration histories", "why_tests_cant": "Ranges over all functions, solver failures and histories.", "anchors": ["gEconpy/solvers/sparse_root/levenberg_marquardt.py: LevenbergMarquardt.step"]}
{"id": "C61", "title": "Cycle reduction: what is returned solves the quadratic matrix equation, and failures are reported", "statement": "The transition matrix returned by cycle reduction is, up to the tolerance, a solution T of A + B T + C T T = 0 (exactly one when the last A2 vanishes), the residual and message describe it truthfully, the compiled kernel agrees with the Python version, and a failure to converge is reported (error or None, as on_failure asks).", "quantifier": "all dimensions, coefficient matrices, iteration limits and tolerances", "why_tests_cant": "Unbounded dimensions and iteration counts; convergence claims range over all matrices.", "anchors": ["gEconpy/solvers/cycle_reduction.py: cycle_reduction_numpy, _cycle_reduction_core, _scan_cycle_reduction, solve_policy_function_with_cycle_reduction", "gEconpy/model/model.py: Model._solve_with_cycle_reduction"]}
{"id": "C62", "title": "Adjoint gradients of the policy function", "statement": "o1_policy_function_adjoints returns the gradients of a loss through the solved transition matrix with respect to A, B and C: along every differentiable family of models with solutions T, the derivative of the loss is the inner product of the returned adjoints with the derivatives of A, B, C (up to the stabilising jitter).", "quantifier": "all dimensions, solution families and loss gradients", "why_tests_cant": "A gradient identity for all directions.", "anchors": ["gEconpy/solvers/shared.py: o1_policy_function_adjoints, stabilize"]}
{"id": "C63", "title": "Pre-computed matrices are used exactly when the caller supplies all of them", "statement": "Functions that accept already computed policy matrices (T, R) or Jacobians (A, B, C, D) use the caller's matrices when all are given and otherwise recompute all of them; they never mix or return missing matrices.", "quantifier": "all subsets of supplied matrices and all values of the verbosity switch", "why_tests_cant": "All combinations of options.", "anchors": ["gEconpy/model/statistics/validation.py: _maybe_solve_model, _maybe_linearize_model"]}
{"id": "C64", "title": "Matrix tables carry the right row and column names", "statement": "matrix_to_dataframe labels each dimension of a model matrix with the variables or shocks it ranges over, for every model size, and refuses matrices of any other shape.", "quantifier": "all models (numbers of variables, shocks, equations) and matrix shapes", "why_tests_cant": "The failing case needs a model with as many shocks as variables.", "anchors": ["gEconpy/model/statistics/formatting.py: matrix_to_dataframe"]}
{"id": "C65", "title": "A supplied steady state is accepted only if it satisfies every equation", "statement": "When a caller supplies a steady state it is accepted exactly when every equation's residual is within 1e-8, and otherwise the error names exactly the violated equations.", "quantifier": "all residual vectors, including those with undefined entries", "why_tests_cant": "All residual vectors and sizes.", "anchors": ["gEconpy/model/statistics/validation.py: _maybe_solve_steady_state"]}
{"id": "C66", "title": "Which variables stay in levels", "statement": "With log-linearisation on, exactly the variables that the user excluded, whose steady state is within 1e-8 of zero, or whose steady state is negative (unless negative steady states are allowed) stay in levels; unknown excluded names are rejected and named; with log-linearisation off every variable stays in levels.", "quantifier": "all variable lists, steady states, exclusion lists and switches", "why_tests_cant": "Ranges over all steady states and names; the value of a variable is looked up by position.", "anchors": ["gEconpy/model/perturbation.py: make_not_loglin_flags", "gEconpy/model/model.py: Model.symbolic_linearization"]}
{"id": "C67", "title": "A block is accepted exactly when it is well formed", "statement": "Constructing a block raises nothing from its own consistency check if and only if: controls and objective come together, there is at most one objective, each control occurs in a definition, the objective or a constraint, @exclude is used only on constraints, @minimize/@maximize only on the objective and not both, and calibrating equations occur only in the calibration component. A missing objective or controls, more than one objective and an unused control raise their documented exceptions.", "quantifier": "all blocks", "why_tests_cant": "ranges over all combinations of components, tags and symbols", "anchors": ["gEconpy/model/block/basic.py: Block._validate_initialization"]}
{"id": "C68", "title": "A gensys solution solves the linearised model, is stable and is the only stable one", "statement": "Whenever solving with gensys returns matrices T and R, A + B T + C T T = 0, B R + C T R + D = 0 (R is the impact matrix computed from T), every impulse T^t x dies out, no other policy T' solves the equation with T'^t x dying out, and the discarded imaginary parts are exactly zero. The compiled wrappers return the same T with their success flag set exactly in this case.", "quantifier": "all real systems A, B, C, D of every size, all positive tolerances, and all results of the QZ and singular value decompositions that satisfy LAPACK's contract", "why_tests_cant": "Tests solve a few models; the algorithm's algebra (reordered QZ, two SVDs, a generalised inverse) has to be right for every dimension split and rank pattern.", "anchors": ["gEconpy/solvers/gensys.py: _gensys_setup, _gensys_core, gensys, solve_policy_function_with_gensys, GensysWrapper", "gEconpy/model/model.py: _solve_with_gensys"]}
{"id": "C69", "title": "gensys return codes mean what they say", "statement": "Without coincident zeros the existence code is 1 exactly when from every initial state some path satisfies the deterministic model at all dates and dies out, and the uniqueness code is 1 exactly when two such paths with the same initial state are equal; a solution is returned exactly when both hold, otherwise an exception is raised or nothing is returned as requested. Coincident zeros give the codes (-2, -2, 0) and never a solution.", "quantifier": "all real systems of every size, all positive tolerances, all admissible decompositions", "why_tests_cant": "The claim is an equivalence with a statement about infinite paths.", "anchors": ["gEconpy/solvers/gensys.py: _gensys_core, interpret_gensys_output", "gEconpy/model/model.py: _solve_with_gensys"]}
{"id": "C70", "title": "The steady-state system is the model on constant paths with zero shocks", "statement": "The steady-state system has one equation per model equation, in order; each has at all parameters and steady-state values the value of the model equation along the constant path through these values with shocks at zero. Hence the steady-state system holds exactly when this constant path solves the model at every date. No dated variable and no shock is left in it.", "quantifier": "all lists of equations, all shocks, all parameter and steady-state values, all dates", "why_tests_cant": "The equivalence ranges over all expressions, values and dates.", "anchors": ["gEconpy/model/steady_state.py: system_to_steady_state"]}
{"id": "C71", "title": "Steady-state error functions vanish exactly at a steady state", "statement": "Each of the error functions (squared, mean_squared, abs, l2-norm) is non-negative and zero exactly where all residuals of the steady-state system are zero.", "quantifier": "all residual vectors of all lengths (mean_squared: non-empty)", "why_tests_cant": "A statement about all real vectors.", "anchors": ["gEconpy/model/steady_state.py: _ss_error_to_pytensor, ERROR_FUNCTIONS"]}
{"id": "C72", "title": "Known steady-state values are substituted without changing the remaining system", "statement": "Where the known values hold, the system with known values substituted has the same residuals as the original equations that still contain an unknown; each remaining equation contains an unknown, none contains a known variable, and with nothing known the system is returned as is. After propagation of known values the substitution leaves no known variable.", "quantifier": "all systems, all dictionaries of known values, all parameter and steady-state values", "why_tests_cant": "All systems and all partial solutions.", "anchors": ["gEconpy/model/steady_state.py: _substitute_and_filter, _ss_residual_to_pytensor"]}
{"id": "C73", "title": "Known steady-state values are returned under the right names", "statement": "The compiled function for known steady-state values returns for each variable with a known value this value under the variable's steady-state name, and nothing for the others.", "quantifier": "all variable lists, all dictionaries of known values", "why_tests_cant": "Mislabelling shows only for particular combinations of known and unknown variables.", "anchors": ["gEconpy/model/steady_state.py: compile_known_ss", "gEconpy/model/compile.py: make_return_dict_and_update_cache"]}
{"id": "C74", "title": "Auxiliary steady-state quantities are substituted out", "statement": "From the user's steady-state block exactly the entries of model variables are kept, in order; where the user's definitions hold the kept entries hold too, and the auxiliary symbols no longer occur. It fails exactly for circular auxiliary definitions.", "quantifier": "all steady-state dictionaries, all variable lists, all values", "why_tests_cant": "Chains of auxiliary definitions of any length and order.", "anchors": ["gEconpy/model/steady_state.py: simplify_provided_ss_equations"]}
{"id": "C75", "title": "Shock hyper-parameters are split off without loss", "statement": "split_out_hyper_params returns the parameters used by no shock distribution, unchanged and in order, and exactly the others with their values.", "quantifier": "all parameter dictionaries, all shock priors", "why_tests_cant": "All dictionaries; a lost parameter goes unnoticed.", "anchors": ["gEconpy/model/build.py: split_out_hyper_params"]}
{"id": "C76", "title": "Priors are divided between parameters and shocks without loss", "statement": "Every declared prior is a parameter prior of the model, or the prior of a shock, or of a hyper-parameter, in which case it is attached to the shock.", "quantifier": "all collections of priors, shock distributions, orders of blocks", "why_tests_cant": "All arrangements of declarations over blocks.", "anchors": ["gEconpy/model/build.py: _split_distributions", "gEconpy/parser/loader.py: distributions"]}
{"id": "C77", "title": "Deterministic parameters are resolved and dropped only when unused", "statement": "Resolving deterministic parameters fails exactly for circular definitions. A deterministic parameter is kept exactly when something in the model uses it, the others are reported; a kept value equals the definition at all values of the other parameters and mentions no deterministic parameter.", "quantifier": "all parameter dictionaries, equations and steady-state relations, all values", "why_tests_cant": "All dependency graphs.", "anchors": ["gEconpy/model/build.py: _resolve_deterministic_params"]}
{"id": "C78", "title": "A built model is complete and consistent", "statement": "In a successfully built model: each given variable is a variable of the model or reported as eliminated, not both; each given parameter is a parameter or a hyper-parameter with its value, not both; the shocks are the given ones; each parameter in an equation has a definition; the steady-state system is that of the model's own equations; the user's steady-state values are in it; a solution of the given equations solves the model's equations; unused parameters are fatal only on request.", "quantifier": "all parsed models, all flag combinations", "why_tests_cant": "The claims combine several passes over arbitrary models.", "anchors": ["gEconpy/model/build.py: _compile_gcn, _apply_simplifications"]}
{"id": "C79", "title": "Steady-state bounds are respected and reparametrisation keeps the system", "statement": "When steady_state(how='minimize', bounds=...) enforces bounds by reparametrisation, whatever point the optimizer stops at is reported as a point strictly inside the user's bounds (or inside the region implied by positive/negative assumptions); the change of variables is a bijection between the optimizer's space and that region, and solving the transformed equations is solving the original ones.", "quantifier": "every model, every bounds dictionary, every optimizer outcome, every method", "why_tests_cant": "the optimizer may stop anywhere; a test sees the points of a few runs only", "anchors": ["gEconpy/model/model.py:infer_variable_bounds", "gEconpy/model/model.py:infer_variable_transform", "gEconpy/model/model.py:transform_steady_state_system", "gEconpy/model/model.py:_solve_steady_state_with_minimize"]}
{"id": "C80", "title": "Model.get finds every object by name, and only that", "statement": "model.get(name) returns the variable, shock or parameter with that name, model.get(name + '_ss') the steady state of the variable; any other name raises, and the suggestion is an existing name.", "quantifier": "every model with distinct names, every string", "why_tests_cant": "all strings and all models", "anchors": ["gEconpy/model/model.py:Model.get"]}
{"id": "C81", "title": "Names in fixed_values are validated", "statement": "steady_state(fixed_values=...) accepts a dictionary iff its keys are names of variables (with or without _ss), each variable given at most once; otherwise the error names exactly the offending ones.", "quantifier": "every model, every dictionary of fixed values", "why_tests_cant": "all dictionaries", "anchors": ["gEconpy/model/model.py:Model._validate_provided_steady_state_variables"]}
{"id": "C82", "title": "Steady-state results are complete and keep given values", "statement": "A returned steady state has one value for every variable and nothing else than variables and calibrated parameters; fixed values are kept, known (analytic) values are those of their formulas at the parameters of the call, every other entry is the solver's value for that very unknown; a linear model has the zero steady state.", "quantifier": "every model, method, parameter update, fixed values and solver", "why_tests_cant": "ranges over all combinations of known, fixed and unknown variables and all solver outcomes", "anchors": ["gEconpy/model/model.py:Model.steady_state", "gEconpy/model/model.py:Model._postprocess_numerical_result", "gEconpy/model/model.py:Model._evaluate_all_resolved", "gEconpy/model/model.py:Model._try_analytic_steady_state"]}
{"id": "C83", "title": "A steady state reported as success solves the model", "statement": "If steady_state() returns success=True, every steady-state equation (and calibrating equation) holds at the reported values up to the tolerance.", "quantifier": "every model, method, parameter update, fixed values and solver", "why_tests_cant": "a false success needs a particular solver outcome or combination of known values", "anchors": ["gEconpy/model/model.py:Model.steady_state", "gEconpy/utilities.py:postprocess_optimizer_res", "gEconpy/model/model.py:Model._evaluate_all_resolved"]}
{"id": "C84", "title": "Inconsistent fixed values are refused", "statement": "If the fixed values alone determine an equation and it does not hold, steady_state() raises and names exactly those equations; values that are accepted satisfy every equation they determine.", "quantifier": "every model and dictionary of fixed values", "why_tests_cant": "all models and all values", "anchors": ["gEconpy/model/model.py:Model._validate_fixed_value_equations", "gEconpy/model/model.py:Model._build_resid_with_fixed_values"]}
{"id": "C85", "title": "Packing the unknowns into a vector keeps their meaning", "statement": "The compiled function of the flat vector handed to scipy evaluates every output with entry i of the vector for unknown i and parameters by name, also when some unknowns do not occur in the outputs; a missing parameter raises.", "quantifier": "every list of outputs, unknowns and parameters, every vector", "why_tests_cant": "all graphs and all subsets of occurring unknowns", "anchors": ["gEconpy/model/compile.py:pack_and_compile"]}
{"id": "C91", "title": "The policy matrices given to the Kalman filter solve the model in the user's variable order", "statement": "Whatever column order the solver works in, the transition and selection matrices stored in the state space solve A x(t-1) + B x(t) + C x(t+1) + D e(t) = 0 in the order of the variables exactly when the solver's own matrices do; policy_resid is zero exactly then; a requested check removes exactly the draws that fail it; the diagnostic norms vanish for a correct solution.", "quantifier": "every number of variables and shocks, every permutation, all matrices", "why_tests_cant": "all orders and all matrices", "anchors": ["gEconpy/model/statespace.py:DSGEStateSpace._setup_policy_matrices", "gEconpy/model/statespace.py:DSGEStateSpace.build_statespace_graph"]}
{"id": "C92", "title": "Temporally aggregated observations are the aggregate of the model's variables", "statement": "Along every trajectory of the estimated state space the original variables follow the policy function, and a series observed with sum, mean, first or last equals the sum or mean of the last `aggregation_period` values of its variable, or the current value, plus its steady state where asked for.", "quantifier": "every accepted configuration, policy function, initial state, shock sequence and date after the window has filled", "why_tests_cant": "all histories, all numbers of aggregated series and periods", "anchors": ["gEconpy/model/statespace.py:DSGEStateSpace._augment_transition", "gEconpy/model/statespace.py:DSGEStateSpace._make_design_matrix", "gEconpy/model/statespace.py:DSGEStateSpace._make_obs_intercept"]}
{"id": "C93", "title": "Observation equations enter with their first-order approximation, lags included", "statement": "A series with an observation equation is reported as intercept plus linear terms in current and lagged variables (aggregated if asked for), where the intercept is the equation at the steady state and the coefficients are its first-order response in deviations (log deviations for log-linearised variables); equations with leads, unknown variables or unknown parameters are refused.", "quantifier": "every equation built from + * ** exp log, every lag depth, every smooth curve of deviations, every trajectory", "why_tests_cant": "all equations, lags and trajectories", "anchors": ["gEconpy/model/statespace.py:DSGEStateSpace._linearize_observation_equation", "gEconpy/model/statespace.py:DSGEStateSpace._append_obs_lag_block", "gEconpy/model/statespace.py:DSGEStateSpace._parse_observation_equation"]}
{"id": "C94", "title": "Measurement error belongs to the series it was declared for", "statement": "The covariance of the measurement error has the declared variance of each series listed in measurement_error at that series' position and zero elsewhere.", "quantifier": "every list of observed series, every list of series with an error, all standard deviations", "why_tests_cant": "all lists and orders", "anchors": ["gEconpy/model/statespace.py:DSGEStateSpace._make_symbolic_graph", "gEconpy/model/statespace.py:DSGEStateSpace.configure"]}
{"id": "C95", "title": "configure accepts exactly the documented arguments and stores them", "statement": "configure succeeds exactly when every name, method, period, solver and count is acceptable; it stores what was passed; the stored configuration is well formed; the outcome does not depend on earlier calls.", "quantifier": "every model and all arguments, every sequence of calls", "why_tests_cant": "all argument combinations and histories", "anchors": ["gEconpy/model/statespace.py:DSGEStateSpace.configure"]}
{"id": "C96", "title": "Low-frequency data are placed at the right high-frequency dates", "statement": "prepare_mixed_frequency_data puts row k at the first or last date of window k, leaves the other dates missing, ends at the last observation, and invents or drops nothing.", "quantifier": "every table, calendar and aggregation period", "why_tests_cant": "all tables and calendars", "anchors": ["gEconpy/model/statespace.py:prepare_mixed_frequency_data"]}
{"id": "C97", "title": "Posterior autocorrelations are the model's autocorrelations", "statement": "Entry k of sample_autocorrelation_matrices is T^(k*lag_step) Sigma scaled by the standard deviations (through the design matrix for observed series, with measurement error in the variance only) and agrees with autocorrelation_matrix at lag k*lag_step.", "quantifier": "all matrices, numbers of lags and lag steps", "why_tests_cant": "all matrices and lags", "anchors": ["gEconpy/model/statespace.py:DSGEStateSpace.sample_autocorrelation_matrices"]}
{"id": "C86", "title": "Solvability check labels each draw with its first failing stage", "statement": "Each row of solvability_check carries the parameters of its draw and the first stage (steady_state, perturbation, blanchard_kahn, deterministic_norm, stochastic_norm) that failed for those parameters, with no label exactly when every stage succeeded; the norms are those of that draw's solution.", "quantifier": "all parameter tables, stage outcomes, solvers, numbers of cores and orders in which workers finish", "why_tests_cant": "stage outcomes and worker schedules are unbounded; a wrong pairing shows only under particular schedules", "anchors": ["gEconpy/model/statistics/perturbation_diagnostics.py:solvability_check", "gEconpy/model/statistics/perturbation_diagnostics.py:_check_one_draw"]}
{"id": "C87", "title": "Samplers stay within bounds and are reproducible", "statement": "sample_uniform, sample_uniform_from_priors and the prior samplers return one column per parameter in the declared order, each value inside the bounds (or quantile range) of its own parameter, reproducibly for a given seed; invalid sizes, methods and bounds are refused.", "quantifier": "all bounds, priors, sizes, seeds, methods and engine outputs", "why_tests_cant": "every random point and every prior", "anchors": ["gEconpy/model/sampling.py:sample_uniform", "gEconpy/model/sampling.py:sample_uniform_from_priors"]}
{"id": "C88", "title": "Residual norms measure whether the solution solves the model", "statement": "The deterministic and stochastic norms reported for a solution are zero exactly when the policy matrices solve A + B T + C T T = 0 and B R + C T R + D = 0, and the state/jumper representation reproduces the solution.", "quantifier": "all matrices, dimensions and tolerances", "why_tests_cant": "all systems; the defect shows only for columns that the solution ignores", "anchors": ["gEconpy/model/perturbation.py:residual_norms", "gEconpy/model/perturbation.py:statespace_to_gEcon_representation"]}
{"id": "C89", "title": "solve_model returns a solution of the linearised model or fails as requested", "statement": "A pair T, R returned by solve_model solves the linearised system at the steady state found; with on_failure='error' it never returns None, with 'ignore' it returns None when no unique solution exists; arguments are validated.", "quantifier": "all models, steady states, solvers, tolerances and failure modes", "why_tests_cant": "all systems and solver outcomes", "anchors": ["gEconpy/model/model.py:Model.solve_model"]}
{"id": "C90", "title": "Caches do not change results", "statement": "Compiled functions, graph nodes, equation tensors and linearisations obtained from a model do not depend on what was requested before, evicted or cleared: every answer is the one a model without caches gives.", "quantifier": "all histories of requests, cache sizes and clearings", "why_tests_cant": "histories are unbounded", "anchors": ["gEconpy/pytensorf/compile.py", "gEconpy/model/model.py:Model.equation_tensors", "gEconpy/model/model.py:Model.symbolic_linearization"]}
{"id": "C99", "title": "block assembles nested lists of arrays like a partitioned matrix", "statement": "`block` rejects exactly the nested lists whose leaves sit at different depths, that contain an empty list or use a tuple as a container; cutting an array of any dimension along its trailing axes and passing the pieces to `block` gives the array back; and in whatever `block` returns every array that was passed appears unchanged as a contiguous sub-array.", "quantifier": "all nested lists of arrays of any dimension, depth and sizes", "why_tests_cant": "nesting depth, number of blocks and sizes are unbounded", "anchors": ["gEconpy/pytensorf/block.py:block", "gEconpy/pytensorf/block.py:_block_check_depths_match"]}
{"id": "C100", "title": "Graph rewrites on joined matrices preserve values", "statement": "Rewriting the transpose of a join, the split of a join, or a grid of blocks whose off-diagonal blocks are zero (into a block-diagonal matrix) never changes what the graph computes, for all values of the inputs, wherever in a graph the rewrite fires and however many are applied.", "quantifier": "all expression graphs, all input values and shapes consistent with the static types, all rewrite sequences", "why_tests_cant": "graphs and shapes are unbounded and rewrites fire silently at compile time", "anchors": ["gEconpy/pytensorf/block_rewrites.py:local_transpose_of_join", "gEconpy/pytensorf/block_rewrites.py:local_nested_join_to_block_diagonal", "gEconpy/pytensorf/block_rewrites.py:local_split_of_join"]}
{"id": "C98", "title": "Differentiable eigenvalues and the symbolic Blanchard-Kahn check", "statement": "`real_eig` returns real and imaginary parts of all eigenvalues with multiplicity in order of modulus, and the gradient it supplies is the exact derivative wherever eigenvalues are distinct and keep their places. `compute_bk_eigenvalues_pt` returns the generalised eigenvalues of the (regularised) system, `check_bk_condition_pt` counts the unstable ones like the numerical check does, infinite ones included, for every sufficiently small regularisation, and `eigenvalue_sensitivity` reports how eigenvalues move with parameters.", "quantifier": "all real matrices, differentiable paths, cotangents; all linearised systems of any size without eigenvalues on the unit circle", "why_tests_cant": "exactness of a derivative and of a count over all matrices cannot be sampled; the regularisation argument is asymptotic", "anchors": ["gEconpy/pytensorf/real_eig.py:RealEig", "gEconpy/model/perturbation.py:compute_bk_eigenvalues_pt", "gEconpy/model/perturbation.py:check_bk_condition_pt", "gEconpy/model/statistics/perturbation_diagnostics.py:eigenvalue_sensitivity"]}
{"id": "C101", "title": "Exported Dynare expressions mean the same", "statement": "Every expression `make_mod_file` prints (sums, products, powers, function calls, leads and lags, steady-state values) is accepted by Dynare's expression grammar in exactly one way, and what Dynare then computes is the value of the sympy expression, when Dynare's names have the values of the symbols; the names in the text are exactly those of the symbols of the expression, and only a parameter called like a variable or like `x_ss`, or a variable called `x_ss`, can make two symbols share a name.", "quantifier": "all expressions in sympy's canonical form, of any size and nesting, all values of variables and parameters for which negative fractional powers have non-negative bases", "why_tests_cant": "precedence mistakes show up only for particular nestings; expressions are unbounded", "anchors": ["gEconpy/dynare_convert.py:DynareCodePrinter"]}
{"id": "C102", "title": "Declarations of the exported Dynare file", "statement": "The `var`, `varexo` and `parameters` statements of the exported file contain the model's variables, shocks and free parameters, each once and in order; each line is a complete statement no longer than `linewidth`, and a new line is started only where the next name does not fit.", "quantifier": "all lists of names, all line widths", "why_tests_cant": "line breaking depends on the lengths of all the names; lists are unbounded", "anchors": ["gEconpy/dynare_convert.py:write_lines_from_list", "gEconpy/dynare_convert.py:write_variable_declarations", "gEconpy/dynare_convert.py:write_shock_declarations", "gEconpy/dynare_convert.py:write_param_names"]}
{"id": "C103", "title": "Model block of the exported Dynare file", "statement": "Dynare's reading of the exported `model` block gives, for each equation in order, the residual gEconpy has for it, where the `#x_ss` definitions stand for the steady-state values the equations mention (their closed forms if all of them have one, otherwise the numerical steady state), and every name the block uses is declared or defined.", "quantifier": "all models (any number of equations and variables), all values of variables and parameters", "why_tests_cant": "the two branches and the set of needed definitions depend on the whole model", "anchors": ["gEconpy/dynare_convert.py:find_ss_variables", "gEconpy/dynare_convert.py:write_model_equations"]}
{"id": "C104", "title": "Steady state block of the exported Dynare file", "statement": "With closed forms for all variables, the exported `steady_state_model` block assigns each variable the value of its closed form, with or without common-subexpression temporaries; otherwise an `initval` block lists the numerical steady state of every variable.", "quantifier": "all models, all parameter values, all results of common-subexpression elimination", "why_tests_cant": "the order of assignments and clashes of names depend on the whole model", "anchors": ["gEconpy/dynare_convert.py:write_steady_state"]}
{"id": "C105", "title": "Numbers in the exported Dynare file", "statement": "The parameter values, steady-state values and shock standard deviations in the exported file are the model's.", "quantifier": "all models, all values", "why_tests_cant": "rounding affects particular values", "anchors": ["gEconpy/dynare_convert.py:write_values_from_dict", "gEconpy/dynare_convert.py:write_shock_std"]}
{"id": "C106", "title": "Reading GCN text: tokens, layout and comments", "statement": "The text of a GCN file is split into words, numbers, dates in brackets, operators and punctuation exactly as the lexical rules say: a reading exists iff the text spells a token sequence, and then it is unique. White space, line breaks and '#' comments may be put between tokens freely without changing what is read; two texts read line after line give the two readings one after the other. Numbers have their decimal value, including fractions and exponents; `[]`, `[1]`, `[-1]`, `[ss]` are the dates 0, 1, -1 and steady state.", "quantifier": "all texts (finite character sequences), all layouts, all comments", "why_tests_cant": "the set of texts is infinite; a test can only sample spellings and layouts", "anchors": ["gEconpy/parser/grammar/tokens.py", "gEconpy/parser/grammar/expressions.py:NUMBER, TIME_INDEX, VARIABLE", "gEconpy/parser/grammar/statements.py:TAG"]}
{"id": "C107", "title": "The grammar of GCN files", "statement": "parse_gcn accepts exactly the files of the GCN grammar and returns what they stand for: expressions with the documented precedence and grouping, equations with tags, multipliers and calibrated parameters, priors with wrappers, arguments and initial values (number expressions in priors have their arithmetic value), shocks, assumptions, options, tryreduce lists, blocks with caseless component keywords. The reading is unique. Of repeated components or special blocks the last one counts; special blocks must come before model blocks; at least one model block is needed. (Violated part: a calibration equation whose right side begins with a name that merely starts like a distribution name is rejected.)", "quantifier": "all texts; all token sequences; files with any number of blocks, components, equations and any nesting of expressions", "why_tests_cant": "the language is infinite and acceptance must be an equivalence (no text outside the grammar accepted, none inside rejected); ambiguity cannot be excluded by samples", "anchors": ["gEconpy/parser/grammar/gcn_file.py:GCN_FILE, parse_gcn, _build_model", "gEconpy/parser/grammar/blocks.py:MODEL_BLOCK, _build_block", "gEconpy/parser/grammar/components.py", "gEconpy/parser/grammar/statements.py", "gEconpy/parser/grammar/special_blocks.py", "gEconpy/parser/grammar/expressions.py"]}
{"id": "C108", "title": "Printed model text can be parsed again, character by character", "statement": "For a parsed model without tryreduce list whose names are words, whose numbers Python prints as plain GCN numbers and whose expressions survive printing (C11), print_model(model, indent) with any white-space indent gives a text that parse_gcn accepts, and the result has the same blocks (same names, equations, controls, shocks, calibration and priors; equation tags and shock distributions are dropped), the same options and, for every variable, the same assumptions. A model with a tryreduce list is printed as text parse_gcn rejects.", "quantifier": "every model, every indent made of white space, every way of printing non-integer numbers that gives GCN numbers", "why_tests_cant": "Models are arbitrary trees with arbitrary names and nesting; tests print a few fixed models, and whether a separator is missing depends on which tokens meet.", "anchors": ["gEconpy/parser/ast/printer.py: print_expression, print_equation, print_distribution, print_block, print_model", "gEconpy/parser/grammar/gcn_file.py: parse_gcn"]}
{"id": "C109", "title": "Parse failures keep their code, text and suggestions", "statement": "A grammar action that fails with an error code, the offending text and suggestions reaches the user as an error with exactly that code, message, offending text, the documented fixes of the code as notes, and its first suggestion as a 'Did you mean' note, although the failure passes through pyparsing as a plain message and may be copied on the way; moving an error to another location or context keeps everything else.", "quantifier": "every message, code, offending text and list of suggestions; every error object", "why_tests_cant": "the data travel inside a string with separators; tests try a few texts, the claim is about every text, and the ones that break it (the separator inside a time index) are not in any test", "anchors": ["gEconpy/parser/errors.py:GCNParseFailure", "gEconpy/parser/errors.py:GCNParseError.with_location", "gEconpy/parser/errors.py:GCNSemanticError", "gEconpy/parser/grammar/gcn_file.py:_convert_parse_exception"]}
{"id": "C110", "title": "Errors are located where they are", "statement": "The line, column, source line, caret line and LSP range of a parse error, and the location recorded in parameter and variable nodes, are those of the position in the user's text: the named line is the source line, the column counts the characters before the position in it, and the range covers exactly the offending word.", "quantifier": "every text, position and offending word", "why_tests_cant": "depends on every layout of the text: empty lines, position at a line break or the end, tabs, dates", "anchors": ["gEconpy/parser/grammar/gcn_file.py:_convert_parse_exception", "gEconpy/parser/errors.py:ParseLocation", "gEconpy/parser/grammar/expressions.py:_parse_variable", "gEconpy/parser/grammar/expressions.py:_parse_parameter"]}
{"id": "C111", "title": "The formatted report shows the right lines, with carets under the error", "statement": "format_error prints severity, code and message, the file position, the offending line with the requested number of lines before and after it (as far as the source has them) with their line numbers, the carets directly below the offending line and under the offending word, then the help line and the notes.", "quantifier": "every error, source text, position and number of context lines", "why_tests_cant": "boundaries (first line, last line, long line numbers) for every source text", "anchors": ["gEconpy/parser/formatting.py:ErrorFormatter.format_error", "gEconpy/parser/formatting.py:ErrorFormatter._format_pointer"]}
{"id": "C112", "title": "From the text of a file to its solutions", "statement": "Loading the text of a GCN file gives a system of equations whose solutions are the solutions of what the file says: along every path that solves the loaded model, every identity, every constraint not tagged @exclude and every objective of the file, as written, holds at every date; conversely, for a file without optimisation problems every path satisfying the written equations solves the loaded model once the auxiliary variables of deep lags and leads are given their values. For blocks that state max V[] = u + beta*E[][V[1]], or a one-period objective, subject to constraints, with or without definitions, the solutions of the loaded model are exactly the paths on which the written equations hold and the discounted Lagrangian of the problem as written (negated for @minimize), over every long enough horizon and over the infinite horizon where it converges, has derivative zero in each control at each date; each constraint has one multiplier, the named one where the file names one.", "quantifier": "every text that parses and loads, every path of real numbers, every date, control and horizon", "why_tests_cant": "tests compare the loaded equations of a few models with a reference; the meaning of an arbitrary file ranges over infinitely many texts and paths, and stationarity is a statement about derivatives of infinite sums", "anchors": ["gEconpy/parser/loader.py: load_gcn_string, ast_model_to_primitives", "gEconpy/parser/preprocessor.py: parse_gcn", "gEconpy/model/block/basic.py: solve_optimization, _build_lagrangian", "gEconpy/parser/transform/to_block.py"]}
{"id": "C113", "title": "Panels of a figure fill their grid without overlap", "statement": "A figure of n panels in c > 0 columns has exactly n places, each two by two cells inside a grid of 2c columns and twice as many rows as needed and no more; panel k stands in row k div c, panels never overlap, each stands right of its predecessor in the row, and every row, also an incomplete last one, is centred. In figures of impulse responses a panel with nothing below it keeps its x labels; with full rows exactly the bottom row does. (A figure with no panels in the default number of columns raises ZeroDivisionError.)", "quantifier": "all numbers of panels and columns", "why_tests_cant": "tests look at a few sizes of the grid; overlap, centring and label placement depend on the remainder of n by c", "anchors": ["gEconpy/plotting.py:prepare_gridspec_figure", "gEconpy/plotting.py:_prepare_irf_grid"]}
{"id": "C114", "title": "A figure shows what was asked for, and refuses unknown names", "statement": "plot_irf draws one panel per variable asked for, in order, with one line per scenario and shock asked for, and succeeds exactly when at least one variable is asked for, the number of columns is not zero and every name exists in every scenario; up to four scenarios are told apart by line style. plot_simulation shows the variables asked for and refuses unknown ones. plot_corner shows every pair once; plot_priors shows every prior once. Violated: with five scenarios two are drawn alike; plot_priors(var_names=[b]) draws the first prior instead of b and does not mark an initial value of zero; plot_corner of one variable raises TypeError; plot_kalman_filter accepts 'Filtered' and then does not find it.", "quantifier": "all scenarios, coordinates, requests, numbers of columns", "why_tests_cant": "the tests draw figures of two models and look at the number of axes; which name reaches which panel is not checked", "anchors": ["gEconpy/plotting.py:plot_irf", "gEconpy/plotting.py:plot_simulation", "gEconpy/plotting.py:plot_priors", "gEconpy/plotting.py:plot_corner", "gEconpy/plotting.py:plot_kalman_filter"]}
{"id": "C115", "title": "Eigenvalue figures show exactly the eigenvalues in range, inside the axes, with first-order arrows", "statement": "The eigenvalues kept by the filters of the sensitivity figure are exactly those above the zero tolerance and below the infinity tolerance, in order, and the announced number is that of the others; by default no modulus below 1e6 is treated as infinite. The axes are equally long and contain every point strictly. An arrow ends at the first-order position of the eigenvalue after the relative parameter change asked for, and the fastest moving eigenvalue has one. plot_eigenvalues draws those below ten, red outside the unit circle. Violated: an eigenvalue of modulus exactly ten (or NaN) is neither drawn nor counted as not shown.", "quantifier": "all lists of eigenvalues (with infinite and NaN ones), gradients and tolerances", "why_tests_cant": "boundary values of the filters and the default tolerance depend on the whole list", "anchors": ["gEconpy/plotting.py:plot_eigenvalues", "gEconpy/plotting.py:_filter_eigenvalues", "gEconpy/plotting.py:_compute_axis_limits", "gEconpy/plotting.py:_draw_eigenvalue_panel"]}
{"id": "C116", "title": "Solvability figures account for every draw once", "statement": "The bars of plot_solvability_summary stand side by side from 0 to 1, one for success and one for each stage at which a draw failed, as wide as its share. Every off-diagonal panel of plot_solvability shows every draw exactly once, in the series of its own outcome; every density on the diagonal is that of all solved or of all unsolved draws.", "quantifier": "all tables of solvability results", "why_tests_cant": "the accounting must hold for every combination of outcomes", "anchors": ["gEconpy/plotting.py:plot_solvability_summary", "gEconpy/plotting.py:_solv_plot_offdiag", "gEconpy/plotting.py:_solv_plot_diagonal"]}
{"id": "C117", "title": "The state-space system is a function of the free parameters and equals the linearisation", "statement": "statespace_from_gcn accepts a model exactly when nothing is calibrated, every variable has an analytic steady state and only known variables are excluded from log-linearisation. Every entry of the symbolic matrices it builds mentions free parameters only, and at all values of the free parameters equals the derivative of the model equation at the declared steady state, in levels or logs as requested.", "quantifier": "all models, all deterministic definitions and steady-state solutions, all exclusions, all parameter values", "why_tests_cant": "Symbolic substitution through parameters and steady state must be right for every model and every parameter vector.", "anchors": ["gEconpy/model/build.py: statespace_from_gcn", "gEconpy/model/parameters.py: compile_param_dict_func", "gEconpy/model/perturbation.py: linearize_model"]}
{"id": "C118", "title": "Roots are classified consistently and the reduced SVD keeps what matters", "statement": "determine_n_unstable counts exactly the generalised roots above a given cutoff; without a cutoff it picks one in [1, 1.01], counts every root outside the unit circle by more than realsmall and none inside, consistently with the cutoff returned and independently of the order. split_matrix_on_eigen_stability splits off the last rows. build_u_v_d keeps exactly the components with singular value above the tolerance and reproduces the matrix up to the dropped ones.", "quantifier": "all lists of pairs, cutoffs and tolerances; all matrices with a singular value decomposition", "why_tests_cant": "The cutoff depends on the whole list and its order.", "anchors": ["gEconpy/solvers/gensys.py: determine_n_unstable, split_matrix_on_eigen_stability, build_u_v_d"]}
{"id": "C119", "title": "Forward- and backward-looking variables are those the equations say", "statement": "backward_variables and symbolic_forward_variables are the variables some equation mentions one period back / ahead, in model order. forward_variables are those whose column in the lead matrix is not negligible, a subset of the symbolic ones (used as fall-back when linearisation fails); their number is the one the Blanchard-Kahn check uses, and lead_var_idx gives their positions.", "quantifier": "all models, steady states and parameters", "why_tests_cant": "Needs every equation system; relates a symbolic and a numerical notion.", "anchors": ["gEconpy/model/model.py: backward_variables, symbolic_forward_variables, forward_variables, lead_var_idx"]}
{"id": "C120", "title": "What the calibration, the shocks and the priors of a GCN file say reaches the loaded model", "statement": "Loading a GCN file (outside STEADY_STATE and other special blocks, block names distinct): (1) `a = <closed expression>;` in a calibration component makes `a` a free parameter whose default has the value of the written expression, and there are no other free parameters with values than those and the priors' stated initial values; (2) `b = <expression in parameters>;` makes `b` a deterministic parameter with the written formula; (3) `lhs = rhs -> c;` makes `c` a calibrated parameter with the equation lhs - rhs; (4) the model's shocks are exactly the shocks listed in shock components; (5) the tryreduce list is the one the file states; (6) `p ~ Dist(args) = v;` gives PreliZ exactly the stated distribution name, the stated arguments and, if wrapped, the stated wrapper arguments; (7) `e[] ~ Normal(...)` gives a distribution for the shock with its numbers kept and its names linked to the priors. Part (7) fails silently when the shock distribution has only numbers or is not Normal: nothing is stored.", "quantifier": "every GCN text that parses, every block, statement, distribution and argument in it", "why_tests_cant": "The number of shapes of calibration statements, their order across blocks and the names are unbounded; tests check a handful of GCN files.", "anchors": ["gEconpy/model/build.py", "gEconpy/parser/loader.py", "gEconpy/parser/transform/to_block.py", "gEconpy/parser/transform/to_distribution.py:ast_to_distribution", "gEconpy/model/block.py"]}
{"id": "C121", "title": "The compiled perfect-foresight period function is the model's equations, and its Jacobian their derivatives", "statement": "compile_perfect_foresight_problem(model): at any period, row r of the compiled residual equals model equation r with x[-1], x[], x[1] read from the previous, current and next state vector, shocks from the shock vector, parameters from the parameter vector, and steady-state references replaced by the model's stated steady-state formulas; column (lag, variable) of the compiled Jacobian is the derivative of that residual; the stacked path system is zero iff every equation holds at every date; compilation succeeds iff all steady-state references have a formula, all dates are within one period and every variable appears in the current period; otherwise the error lists exactly the unsolved steady-state symbols. Two parts fail: a model with a calibrated parameter in its equations never compiles, and a lagged shock e[-1] is silently read as e[].", "quantifier": "every model (equations, shocks, parameters, stated steady-state values), every order of Python's sets, every period argument, every horizon and path", "why_tests_cant": "Unbounded models and real-valued arguments; the derivative claim is about limits.", "anchors": ["gEconpy/model/perfect_foresight/compile.py:compile_perfect_foresight_problem", "gEconpy/model/perfect_foresight/compile.py:_compile_single_period_function", "gEconpy/model/perfect_foresight/compile.py:_substitute_steady_state_values"]}
{"id": "C123", "title": "The functions handed to the steady-state solvers are the equations, their error and its true derivatives", "statement": "When `steady_state` solves numerically, the function scipy calls returns at every trial point exactly the remaining steady-state equations (`how='root'`) or the chosen error of them at the point that would be reported (`how='minimize'`, with or without reparametrised bounds); the Jacobian, gradient, Hessian and Hessian-vector product it is given are derivatives of that very function wherever it is differentiable, with one column/entry per unknown in the order of the solution vector; exactly the requested derivatives are passed; the caller's start, method, tolerance, iteration budget and other options are the ones used, with the documented defaults; and a system is refused before iterating only if an unknown occurs in no equation, nothing is to be solved for, or the error function is unknown.", "quantifier": "all equation systems, unknowns, parameter dictionaries, trial points, directions, error functions, bounds, derivative flags and optimizer keyword dictionaries", "why_tests_cant": "A derivative that is wrong at some points, a column order that is wrong for some systems, or an option lost for some methods does not show in the handful of models that are solved in tests: solvers often converge with a bad Jacobian.", "anchors": ["gEconpy/model/steady_state.py:build_root_graphs", "gEconpy/model/steady_state.py:build_minimize_graphs", "gEconpy/model/steady_state.py:pt_error_from_resid", "gEconpy/model/model.py:_solve_steady_state_with_root", "gEconpy/model/model.py:_solve_steady_state_with_minimize", "gEconpy/model/compile.py:pack_and_compile"]}
{"id": "C124", "title": "The report after building a model says what was built", "statement": "The report logged after a GCN file is built has, each on its own line, the number of equations, variables, shocks, parameters and parameters to calibrate of the model that was built and the number of priors; it names every variable and parameter that was eliminated under the right heading; its count of analytical steady-state values is the number of variables of the model that have one, split into those the user gave and those inferred, and the names are listed completely and in order, wrapped so that a line breaks only where the next name does not fit; it warns, naming both counts, exactly when the numbers of equations and variables differ and otherwise ends by calling the model ready to solve; and the numbers of priors count parameters and shocks of the model.", "quantifier": "all model primitives that build, all numbers and names of variables, parameters, priors and steady-state values", "why_tests_cant": "a test reads a handful of reports; the wrapping and the counts must be right for every number and length of names, and for models reduced in any way", "anchors": ["gEconpy/model/build.py: build_report", "gEconpy/model/build.py: _format_ss_var_list", "gEconpy/model/build.py: _pluralize", "gEconpy/model/build.py: _compile_gcn"]}
{"id": "C122", "title": "Artificial data from the prior belong to the parameters returned with them", "statement": "data_from_prior returns the parameters of one of the n_samples prior draws, the number of that draw, and data simulated from exactly these parameters, with the model's observed states as columns and the given index as rows; exactly the integer part of rows times pct_missing values of every column are missing, nothing else is changed, and a fraction that is not between 0 and 1 is refused; the default checks written in the function are applied unless the caller overrides them; and the caller's PyMC model and the state-space model are left as documented.", "quantifier": "all models, priors, indices, numbers of draws, fractions, keyword arguments and states of the random generator", "why_tests_cant": "sampling is random: a test looks at a few seeds and fractions, and does not notice that a dictionary of defaults is thrown away", "anchors": ["gEconpy/model/statespace.py: data_from_prior", "gEconpy/model/statespace.py: DSGEStateSpace.build_statespace_graph"]}
{"id": "C125", "title": "The model loaded by default has the solutions of the model as written", "statement": "load_gcn_file (and model_from_gcn) simplifies blocks by default, eliminating Lagrange multipliers it generated itself. Compared with loading the same file with simplify_blocks=False: it succeeds only where the latter does; parameters, calibrating equations, deterministic parameters, shocks and steady-state values are the same; no variable is added and the only variables lost are eliminated multipliers, whose names contain lambda__. Every solution of the unsimplified model (path with steady state) solves the default one, and every solution of the default one becomes a solution of the unsimplified one by giving the eliminated multipliers suitable values. Composed with the reading of the file: the solutions of the default model are the paths on which the written equations hold and the written Bellman problems are stationary.", "quantifier": "every GCN text that loads, every path of every variable and every date, every lawful behaviour of sympy's solve/evaluation and every set iteration order", "why_tests_cant": "equivalence of two systems of equations over all paths, for all model files and all solver outputs, cannot be sampled", "anchors": ["gEconpy/model/block/basic.py: Block.simplify_system_equations, Block.solve_optimization", "gEconpy/parser/transform/to_block.py: ast_model_to_block_dict", "gEconpy/parser/loader.py: ast_model_to_primitives, load_gcn_file"]}
{"id": "C126", "title": "Errors found while a block is checked point at the declaration they are about", "statement": "When a model file is loaded and a block is refused because a parameter is declared twice, a control appears in no equation, or a calibrating equation uses dated variables, the text of the error names the block and the offending name, and shows the file: the line of the declaration with its number, the line before and the two after as far as they exist, and carets exactly under the offending name, whatever the number of the line. Without source or with a place outside the source the text is the message alone. The place is that of the last declaration recorded for the name.", "quantifier": "all source texts, positions, line numbers, names, annotations, notes and blocks", "why_tests_cant": "Alignment depends on the text, the width of the line numbers at both ends of the window, white space at the ends of lines, breaks and tabs; tests look at one short file.", "anchors": ["gEconpy/exceptions.py: GCNValidationError, DynamicCalibratingEquationException, ControlVariableNotFoundException, DuplicateParameterError", "gEconpy/parser/transform/to_block.py: ast_block_to_block, _convert_calibration", "gEconpy/model/block/basic.py: Block._get_param_dict_and_calibrating_equations, Block._validate_initialization"]}
{"id": "C127", "title": "Parsed blocks converted directly keep all their equations, parameters and variables", "statement": "block_to_sympy, model_to_sympy, ast_block_to_equations, ast_block_to_calibration and ast_block_to_variables_and_shocks convert a parsed model without building it. Every equation of every component appears once, in order, with the value it has as written, and its metadata name its calibrated parameter and its multiplier (dated now, with the declared assumptions). Every parameter of the calibration has the value of its last assignment or starting value, every calibrating equation and every prior is kept. The variables are exactly those of the block, without repetition, and the shocks the declared ones.", "quantifier": "all parsed models, blocks, equations, assumptions and orders of calibration statements", "why_tests_cant": "Completeness and order must hold for any number of equations and blocks, repeated names and repeated assignments included; tests convert a few small blocks.", "anchors": ["gEconpy/parser/transform/to_sympy.py: equation_to_sympy, block_to_sympy, model_to_sympy", "gEconpy/parser/loader.py: ast_block_to_equations, ast_block_to_calibration, ast_block_to_variables_and_shocks"]}
{"id": "C128", "title": "The autocorrelation figure shows each model's autocorrelations of each variable at their lags", "statement": "plot_acf draws one panel per variable asked for (those of the first model by default), in order and in its grid place. A panel shows, for every model that has the variable and only for those, in order and in the model's own colour, the model's autocorrelation of that variable with itself at every lag, with its intervals, moved sideways by an offset that keeps models apart; then the reference data where they exist. The legend names every model with its colour. Unknown variables and tensors without exactly two variable dimensions are refused.", "quantifier": "all dictionaries of models, variables, lags, dodge widths, references and numbers of columns", "why_tests_cant": "Which number lands in which panel at which lag must be right for any number of models and any orders of variables and dimensions; tests look at the number of axes.", "anchors": ["gEconpy/plotting.py: plot_acf, _acf_variable_dims, _plot_acf_panel"]}
{"id": "C129", "title": "Heat maps, matrices, pair plots, time series and sensitivity figures show the right number in the right place", "statement": "plot_covariance_matrix, plot_heatmap and annotate_heatmap show in every cell the number of its row and column, with one labelled tick per row and column and readable text colours. plot_estimated_matrix shows every entry (every pair once if symmetric). plot_solvability shows every pair of varying parameters once, densities on the diagonal, and refuses parameters that are not available. plot_timeseries has one panel per variable asked for. plot_eigenvalue_sensitivity has one panel per parameter asked for with arrows from every eigenvalue to its first-order position at the value announced. The legends of impulse responses name the lines they stand beside.", "quantifier": "all tables, selections, numbers of columns, parameter values, perturbation sizes, scenarios and shocks", "why_tests_cant": "Placement must be right for all sizes and orders of the selections; tests check that figures are created.", "anchors": ["gEconpy/plotting.py: plot_covariance_matrix, plot_heatmap, annotate_heatmap, plot_estimated_matrix, plot_solvability, plot_timeseries, plot_eigenvalue_sensitivity, _add_shocks_legend, plot_irf"]}
{"id": "C130", "title": "Printed impulse responses satisfy the equations of the file to first order", "statement": "Load a GCN file whose variables are dated t-1, t, t+1 or steady state, linearise it at a steady state that solves it (in levels or in percent deviations as requested), solve it and compute impulse responses to a shock of some size. Put the economy on the printed response scaled by h, the shock being h times its size at date 0 and nothing before. Then every equation of the file as written holds at every date of the table up to a term smaller than any multiple of h; for a T that solves the linear system only approximately (cycle reduction), the equations move at the rate (A + B T + C T^2) times the previous deviations and nothing else.", "quantifier": "all GCN files, steady states, sets of log-linearised variables, solver outputs, shock sizes, horizons, scales h -> 0 and dates of the table but the last", "why_tests_cant": "The claim composes parser, block construction, linearisation, solver and simulation and is a limit statement; tests compare the tables of a few models with stored numbers.", "anchors": ["gEconpy/model/model.py:solve_model", "gEconpy/model/model.py:linearize_model", "gEconpy/model/simulate.py:impulse_response_function", "gEconpy/model/perturbation.py:linearize_model", "gEconpy/parser/loader.py:ast_model_to_primitives"]}
{"id": "C131", "title": "Number conversions, sorting and pickling keep a SymbolDictionary's content", "statement": "values_to_float() gives the same keys in the same order and mode, turns exactly the sympy numbers into floats and complex field elements into complex numbers, leaves every other value alone, gives the result its own copy of the metadata and changes no existing dictionary; float_to_values() likewise, and the two in succession restore floats, complex numbers and symbolic values; the in-place form leaves the receiver with exactly that result. sort_keys() gives the same entries sorted by the string of the key. A pickled and unpickled dictionary has the same class, entries, order, mode, metadata and extra attributes, and converts to symbols as the original did; copying or converting a SteadyStateResults keeps its success flag.", "quantifier": "all dictionaries of one kind whose metadata records their symbols, all values, all processes that unpickle", "why_tests_cant": "Tests use a few dictionaries; the claim concerns every mixture of keys, dates, assumptions, values and sharing of metadata.", "anchors": ["gEconpy/classes/containers.py:SymbolDictionary.values_to_float", "gEconpy/classes/containers.py:SymbolDictionary.float_to_values", "gEconpy/classes/containers.py:SymbolDictionary.sort_keys", "gEconpy/classes/containers.py:SymbolDictionary.__reduce__", "gEconpy/classes/containers.py:_unpickle_symbol_dictionary", "gEconpy/classes/containers.py:SteadyStateResults"]}
{"id": "C132", "title": "A perfect-foresight run solves the file's equations between the promised boundaries", "statement": "solve_perfect_foresight returns a table whose residuals are, row by row and date by date, the violations of the model's equations (as written in the GCN file) on the path made of the table inside the horizon and of the boundary values just outside it: the user's initial and terminal conditions, else the steady state at the parameters of the first or last period, or the dictionary passed as x0; shocks are zero and parameters the model's own unless a path is given. Success means every equation holds at every date up to 1e-10 unless the last step was negligible; with the default solver the sum of squared violations never exceeds that of the guess; and a guess which already solves the model comes back unchanged after no iteration.", "quantifier": "all GCN files, models, horizons, guesses (none, steady state, frame, array), conditions, shock and parameter paths, and solvers with honest steps", "why_tests_cant": "each piece may pass its own tests while the composition pairs the wrong dictionary, date, column or parameter value; the claim ranges over every model, horizon and combination of inputs", "anchors": ["gEconpy/model/perfect_foresight/solve.py: solve_perfect_foresight", "gEconpy/model/perfect_foresight/compile.py: compile_perfect_foresight_problem", "gEconpy/solvers/sparse_root: sparse_root"]}
{"id": "C133", "title": "A reported steady state is a point where the file's equations hold, as written, at every date", "statement": "When Model.steady_state reports success for a model loaded from a GCN file, the economy resting at the reported values (every variable constant, shocks zero, the parameters of the call, definitions holding) satisfies every equation of every model block, as written in the file, at every date up to the tolerance.", "quantifier": "all GCN files (any leads and lags), all parameter updates, fixed values, solvers and exact compiled graphs", "why_tests_cant": "the chain text, grammar, block building, substitution of definitions, steady-state conversion, reduction by known values and the success flag is long; each link may pass on its own examples while the composition loses an equation, a shock or a date", "anchors": ["gEconpy/model/model.py: Model.steady_state", "gEconpy/model/steady_state.py: system_to_steady_state", "gEconpy/model/build.py: model_from_gcn"]}
{"id": "C134", "title": "A solver object answers alike however it was used before", "statement": "A root-solver object may be used for any number of solves, of systems of any sizes, directly through sparse_root or passed to solve_perfect_foresight: each call gives the result a newly made object with the same settings would give.", "quantifier": "all histories of calls with one object, all systems, starts, tolerances and direction strategies", "why_tests_cant": "It ranges over histories of mutation of a shared object.", "anchors": ["gEconpy/solvers/sparse_root/sparse_root.py: sparse_root, _root_find_core", "gEconpy/solvers/sparse_root/line_search.py: LineSearchSolver.init", "gEconpy/solvers/sparse_root/dogleg.py: SparseDogleg.init", "gEconpy/model/perfect_foresight/solve.py: solve_perfect_foresight"]}
{"id": "C135", "title": "An exported Dynare model block has the equations of the GCN file", "statement": "Take the text of a GCN file that loads, and the Dynare file make_mod_file writes for the loaded model. Every equation a model block imposes directly (identities, constraints not tagged @exclude, objective) has a line of the exported model block, and what Dynare, reading that line by its own grammar, computes for it at any date is the right minus the left side of the equation as written, on every path on which the blocks' definitions hold. Hence the paths on which all lines are zero at all dates are exactly the solutions of the loaded model, and they satisfy every such equation of the GCN file as written.", "quantifier": "for every file text, every model view holding the loaded equations in sympy's form, every path of the variables, every date and every line of the exported block, with steady state references in closed form or as numbers", "why_tests_cant": "exported files can be compared with stored ones for a few models; no test reads the export by Dynare's grammar for every expression tree, precedence pattern, lag and steady state reference", "anchors": ["gEconpy/dynare_convert.py:write_model_equations", "gEconpy/dynare_convert.py:make_mod_file", "gEconpy/parser/loader.py:load_gcn_string"]}
{"id": "C136", "title": "The estimated state space follows the equations of the file to first order", "statement": "Build a state space from a GCN file with statespace_from_gcn, configure it with any solver, and take any draw of the parameters and any trajectory of the Kalman filter's state. Around any date, put the variables at the filter's state (in levels or logs as requested) and next period's at its forecast, scaled by h. Then each equation of the file, as written, changes at a rate whose square is at most the policy residual times the squared length of the previous state; a draw admitted by add_solver_success_check misses the equations by at most sqrt(solver_tol) times that length, and a zero residual makes them hold to first order.", "quantifier": "for every file text, option, parameter draw, solver, configuration of observed series, shock sequence, initial state and date", "why_tests_cant": "It ranges over all models, draws and trajectories; it crosses the reordering of equations and variables between the linearisation, the solver and the filter", "anchors": ["gEconpy/model/build.py:statespace_from_gcn", "gEconpy/model/statespace.py:DSGEStateSpace._setup_policy_matrices, make_symbolic_graph, build_statespace_graph", "gEconpy/solvers/backward_looking.py:solve_policy_function_with_backward_direct_pt", "gEconpy/solvers/shared.py:pt_compute_selection_matrix"]}
{"id": "C137", "title": "The Blanchard–Kahn check counts the roots of the model's characteristic equation", "statement": "The unstable eigenvalues that check_bk_condition counts are the roots of the linearised model A x(t-1) + B x(t) + C x(t+1) = 0: the number of roots of det(A + zB + z²C) on or outside the unit circle, with multiplicity, plus those at infinity, whatever generalized Schur decomposition LAPACK returns, and the check passes exactly if there are as many as variables with a lead. A root is a growth rate: the equations of the file, as written, hold to first order along a nonzero deviation growing at that rate. Whenever gensys returns a solution, the condition holds. A model for which every number is a root must not pass.", "quantifier": "every linearised model of any size, every generalized Schur decomposition of its pencil, every tolerance that separates its roots from the unit circle; every file of the modelled grammar for the reading of a root", "why_tests_cant": "The claim is about every matrix and every decomposition, multiplicities included; a test compares one eigenvalue table with one reference", "anchors": ["gEconpy/model/perturbation.py: compute_bk_eigenvalues, check_bk_condition", "gEconpy/model/statistics/perturbation_diagnostics.py: check_bk_condition"]}
{"id": "C138", "title": "The gensys solution is the model's only stable rational-expectations equilibrium, and the reported moments are its moments", "statement": "When solve_model(solver=\"gensys\") returns T and R, then for every filtration of conditional expectations, every sequence of unforeseeable shocks and every initial condition known at date 0, a process satisfies A x(t-1) + B x(t) + C E_t x(t+1) + D e(t) = 0 at every date, is known at every date and has vanishing expectation of the far future if and only if it moves by x(t) = T x(t-1) + R e(t). The matrix stationary_covariance_matrix returns for that T and R is the only covariance that reproduces itself, the covariance of every equilibrium tends to it from any initial values, and the covariances with the values l periods earlier tend to the l-th matrix autocovariance_matrix returns.", "quantifier": "all linearised models and shock loadings of any size, all solutions gensys returns, all spaces of mean-zero random variables with conditional expectations, all shock sequences, all processes, all shock options, all lags", "why_tests_cant": "A test can compare T and R with a reference for one calibration; that no other stable process satisfies the expectational equations, whatever the information structure and shocks, and that the reported moments are limits from any start, are statements about all processes and all dates.", "anchors": ["gEconpy/solvers/gensys.py: solve_policy_function_with_gensys, gensys", "gEconpy/model/model.py: solve_model", "gEconpy/model/statistics/covariance.py: stationary_covariance_matrix, autocovariance_matrix"]}
{"id": "C139", "title": "The Blanchard-Kahn report: complete, sorted, and independent of how the model is written down", "statement": "check_bk_condition(return_value=\"dataframe\") returns one row per variable plus one per variable with a lead, in ascending order of modulus, with modulus, real and imaginary part of the same value; the reported number of unstable values is the number of rows with modulus above one, and these are the last rows. The verdict, counts and exceptions depend neither on NumPy's treatment of ties nor on the order in which variables and equations are listed; the logged message determines both counts. summarize_perturbation_solution raises exactly when T or R is missing, and otherwise every number is found under its labels.", "quantifier": "all linearised models of any size, all tolerances, all valid QZ decompositions of each ordering, all sorting orders, all reorderings of variables and equations, all option values, all shapes of the summarised arrays", "why_tests_cant": "A test fixes one model, one LAPACK result and one ordering; independence of the order of equations and variables and of the decomposition is a statement about all of them.", "anchors": ["gEconpy/model/perturbation.py: compute_bk_eigenvalues, check_bk_condition", "gEconpy/model/statistics/perturbation_diagnostics.py: check_bk_condition, summarize_perturbation_solution"]}
{"id": "C140", "title": "Results belong to names, not positions", "statement": "Listing a model's variables, equations, shocks and log-linearised variables in another order gives the same model: solve_model returns the same transition matrix and shock loadings, looked up by variable and shock name (for cycle reduction and backward-looking models also the same failures; for gensys it finds a solution for the one exactly when it does for the other), and stationary_covariance_matrix and impulse_response_function report the same numbers under the same names, whenever shocks are described by name or all alike.", "quantifier": "every model with a square system and distinct names, every permutation of its variables, equations, shocks and log-linearised variables, every parameter value and steady state, every LAPACK result meeting its contract, every horizon", "why_tests_cant": "a test compares a few orderings of a few models; the claim is about every permutation of every model, and about whatever valid Schur and singular value decompositions LAPACK returns for the permuted matrices", "anchors": ["gEconpy/model/model.py: Model.solve_model, Model.linearize_model", "gEconpy/solvers/gensys.py: solve_policy_function_with_gensys", "gEconpy/solvers/cycle_reduction.py: solve_policy_function_with_cycle_reduction", "gEconpy/solvers/backward_looking.py", "gEconpy/model/statistics.py: stationary_covariance_matrix", "gEconpy/model/simulate.py: impulse_response_function"]}
{"id": "C141", "title": "Log-linearisation changes units only", "statement": "Choosing which variables to log-linearise changes nothing but the units of the answer: with every response multiplied by one unit of its variable (the steady state if the variable is log-linearised, one otherwise), solve_model gives the same transition matrix and shock loadings for every choice, finds a solution for the one choice exactly when it does for the other, and impulse_response_function and stationary_covariance_matrix report the same movements in levels.", "quantifier": "every model with a square system and distinct names, every two lists of log-linearised variables whose members' steady states are not zero, every parameter value and steady state, every LAPACK result meeting its contract, every horizon", "why_tests_cant": "a test compares a log-linear and a linear solution of a few models; the claim is about every pair of choices for every model and whatever valid decomposition LAPACK returns for the rescaled matrices", "anchors": ["gEconpy/model/model.py: Model.solve_model, Model.linearize_model", "gEconpy/model/perturbation.py: linearize_model", "gEconpy/solvers/gensys.py: solve_policy_function_with_gensys", "gEconpy/model/simulate.py: impulse_response_function", "gEconpy/model/statistics.py: stationary_covariance_matrix"]}
{"id": "C142", "title": "Equations may be rewritten", "statement": "Writing a model's equations in another way leaves the solution alone: multiplying an equation by anything that is not zero at the steady state, exchanging its sides, or writing it in logs where both sides are not zero there, in any combination, gives the same transition matrix and shock loadings from solve_model, and a solution for the one exactly when there is one for the other.", "quantifier": "every model with a square system and distinct names, every combination of such rewritings of its equations, every parameter value and steady state, every LAPACK result meeting its contract", "why_tests_cant": "the rewritings are unboundedly many and scale the rows of the linearised system arbitrarily, so that no two share a decomposition", "anchors": ["gEconpy/model/model.py: Model.solve_model, Model.linearize_model", "gEconpy/model/perturbation.py: linearize_model", "gEconpy/solvers/gensys.py: solve_policy_function_with_gensys"]}
{"id": "C143", "title": "Reported moments are moments, and impulse responses account for them", "statement": "In every stable model stationary_covariance_matrix returns a covariance matrix (symmetric, no negative variance, no covariance above the product of the standard deviations), autocorrelation_matrix returns numbers between -1 and 1 at every lag and between any two variables, with 1 for a moving variable with itself at lag zero, autocovariances and autocorrelations die out as the lag grows, and the impulse responses add up: products of the responses of two variables summed over shocks and horizon approach their covariance when both functions are given the same shock sizes.", "quantifier": "every stable transition matrix (in particular every gensys solution), every shock loading, every way of describing the shocks, every lag and horizon, every Lyapunov solver meeting its contract", "why_tests_cant": "bounds over all lags and limits in the horizon quantify over unboundedly many values, and the Cauchy-Schwarz argument is about every stable system", "anchors": ["gEconpy/model/statistics/covariance.py: build_Q_matrix, stationary_covariance_matrix, autocovariance_matrix, autocorrelation_matrix", "gEconpy/model/simulate.py: impulse_response_function"]}
{"id": "C144", "title": "An economy at rest stays at rest", "statement": "solve_perfect_foresight without shocks, with parameters that do not change within the horizon and with the ends and the start left to the steady state (the model's or one passed as x0), succeeds without an iteration and returns the steady state in every period, provided the model's equations hold there; simulate without shocks stays at the steady state, and impulse responses to shocks of size zero are zero.", "quantifier": "every model, horizon, solver, set of fixed parameter values and steady state; every sequence of zero shocks of any length", "why_tests_cant": "all models and horizons; the first and last period use boundary values instead of the table, so that the claim is about how they fit together", "anchors": ["gEconpy/model/perfect_foresight/solve.py: solve_perfect_foresight", "gEconpy/model/simulate.py: simulate, impulse_response_function"]}
{"id": "C145", "title": "A syntax error is reported under one documented code", "statement": "Every syntax error of a model file is reported under a code of the error catalog: the title of that code begins the message, its fixes are the notes and its title the annotation; errors of the parser's own are sorted by what was expected and found - parenthesis, then semicolon, then brace, then operand - so that a missing semicolon, an unclosed brace and an unclosed parenthesis are reported as such, and anything else keeps the parser's message. Looking a code up by name succeeds exactly for the codes of the catalog, no two codes share a title or help text, and the help text lists every cause and fix. parse_expression reports the same mistakes under the same codes, with a readable message.", "quantifier": "every message, expected text, offending text and position pyparsing can report; every string as a code", "why_tests_cant": "the classification is by substrings of a message from another library and of the user's text; tests fix a dozen files", "anchors": ["gEconpy/parser/grammar/gcn_file.py:StructuralErrorHandler", "gEconpy/parser/grammar/gcn_file.py:_convert_parse_exception", "gEconpy/parser/grammar/gcn_file.py:_get_semantic_annotation", "gEconpy/parser/error_catalog.py:ErrorCode", "gEconpy/parser/error_catalog.py:format_error_help", "gEconpy/parser/error_catalog.py:get_error_info", "gEconpy/parser/grammar/expressions.py:_classify_expression_error", "gEconpy/parser/grammar/expressions.py:_get_error_code"]}
{"id": "C146", "title": "In a linear model perfect foresight and the linear solution agree", "statement": "If every equation of a model is linear in the deviations of its variables from the steady state, with coefficient matrices A (one period back), B (now), C (one period ahead) and D (shocks), then linearize_model at that steady state without logarithms returns exactly A, B, C and D. If T and R satisfy the two matrix equations of the linear solution, A + BT + CTT = 0 and BR + CTR + D = 0, then solve_perfect_foresight, given as guess the path that simulate computes from T and R after a shock in the first period and its next value as terminal condition, reports success without an iteration and returns that path; from any starting point the same holds for the path of the rule x' = Tx. In a model without expectations (C = 0) it holds for shocks in every period and any terminal condition.", "quantifier": "all linear models of any size, their steady states, coefficient matrices, solutions T and R, horizons, shock sizes, starting points, orders of the columns, names and assumptions of the symbols, parameter settings, solvers", "why_tests_cant": "the agreement of two independent solution methods is asserted for every linear model, matrix solution, horizon and shock; a test compares them on one calibrated model up to a tolerance", "anchors": ["gEconpy/model/perfect_foresight/solve.py: solve_perfect_foresight", "gEconpy/model/perturbation.py: linearize_model", "gEconpy/model/simulate.py: simulate"]}
{"id": "C147", "title": "str() of a parsed model's parts is GCN text, and its queries report what it contains", "statement": "str() of any expression the parser makes is text which parses as the same expression, so two expressions with the same text are equal; str() of an equation without a multiplier, with its tags and its calibrated parameter, and str() of a prior are, with the semicolon, text which parses as the same equation or prior. all_equations returns exactly the definitions, objectives, constraints and identities of the blocks; all_variables and all_parameters return exactly the variables (with their dates) and parameters that occur somewhere on either side of one of them, each once; collecting from an expression returns what occurs in it. get_block returns the first block of that name, or None when none has it; a block has an optimization problem when it has controls and an objective. Not so: str() of an equation with a multiplier leaves out the index brackets and is not an equation; parameters that only the calibration mentions are not among all_parameters.", "quantifier": "all expressions, equations, priors and files, of any size and depth; all ways of writing a number that is not whole", "why_tests_cant": "the round trip and the queries are claimed for expressions of every shape and depth, and distinctness for every pair; a test prints a few expressions", "anchors": ["gEconpy/parser/ast/nodes.py: Number.__str__, BinaryOp.__str__, UnaryOp.__str__, FunctionCall.__str__, Expectation.__str__, GCNEquation.__str__, GCNDistribution.__str__, GCNBlock.has_optimization_problem, GCNModel.get_block, GCNModel.block_names, GCNModel.all_equations, GCNModel.all_variables, GCNModel.all_parameters", "gEconpy/parser/ast/visitor.py: NodeCollector, collect_nodes_of_type"]}
{"id": "C148", "title": "How a file is laid out does not change the model", "statement": "Two GCN texts made of the same tokens - with other line breaks, spaces or comments - give the loader the same model and the same priors, or are both rejected, with the simplification of blocks (the default of load_gcn_file) or without. The rest is about files whose model blocks have different names. If a file loads, declares at most one steady-state block and sets only parameters in its calibrations, any file with the same blocks in another order loads too, with the same equations up to their order, and the same variables, shocks, parameters, calibrating equations, computed parameters and steady-state values, again with simplification (then also eliminating the same multipliers) or without; and when its variables have different names, and as many equations, and both models are solved linearly by the same solver at the same parameters and steady state, their policy matrices have the same entries, looked up by variable and shock name. When no parameter has priors in two blocks, the order of the blocks does not change the prior of any parameter, and when no shock has distributions in two blocks and the priors a shock's distribution names are stated in its own block, it does not change the distribution of any shock. Without simplification, if two files make the same assumptions, date their definitions near t, and each states what the other states - model blocks kept as they are, or plain equations moved to other blocks, repeated, split or gathered - then, on every path on which their definitions hold, one model is solved exactly when the other is. If their model blocks declare the same shocks, in whatever blocks, the shocks of the two models are the same list.", "quantifier": "all texts, all pairs of files that load, all real-valued paths", "why_tests_cant": "a test compares a few rewritings of a few files; the claim ranges over all rewritings of all files and compares solutions on all paths", "anchors": ["gEconpy/parser/loader.py: load_gcn_string, ast_model_to_primitives, _block_dict_to_variables_and_shocks, _block_dict_to_param_dict", "gEconpy/parser/transform/to_block.py: ast_model_to_block_dict", "gEconpy/parser/preprocessor.py: preprocess, quick_parse", "gEconpy/parser/grammar/gcn_file.py", "gEconpy/model/model.py: Model.solve_model"]}
{"id": "C149", "title": "Printing a model and loading the text gives the same model", "statement": "Take any GCN file that parses, whose names, numbers and expressions survive printing (C108), without tryreduce list, without equation tags, and in which each variable is given at most one assumption besides real and finite. The text print_model writes for it, with any white-space indent, loads (load_gcn_string, load_gcn_file) exactly when the file does, and gives the same model: the same equations, variables, shocks, parameters, calibrating equations, computed parameters, steady-state values, blocks and eliminated multipliers, in the same order; and the same priors when no shock has a distribution.", "quantifier": "all parsed files, all indents, all ways of writing numbers that give GCN numbers, all results of sympy's simplification and of PreliZ", "why_tests_cant": "a test prints and reloads a few models; whether a separator, a lost component or another order changes the loaded model depends on the whole tree", "anchors": ["gEconpy/parser/ast/printer.py: print_model", "gEconpy/parser/loader.py: load_gcn_string, load_gcn_file, ast_model_to_primitives", "gEconpy/parser/transform/to_block.py: ast_block_to_block", "gEconpy/parser/grammar/gcn_file.py: parse_gcn"]}
