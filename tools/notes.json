{
 "C01": {
  "note": "name injective for every base name; safe_name for base names without +/- (all GCN identifiers); the collision for others is exhibited"
 },
 "C02": {
  "note": "stepping a steady-state symbol raises; the to_ss docstring promise that it is a no-op is refuted for every symbol (C02_docstring_violated)"
 },
 "C03": {
  "note": "holds for dates t-1,t,t+1,ss without name clashes; false for every |t|>=2 (C03_deep_index_lost) and for clashing names"
 },
 "C04": {
  "note": "invariant over all histories except the two unchecked update() forms; both are shown to break it"
 },
 "C05": {
  "note": "false as stated: copy, | and to_ss share metadata with the receiver (three witnesses); frame theorem for the conversions that are safe"
 },
 "C06": {
  "note": "sympy-keyed dictionaries"
 },
 "C07": {
  "note": "all equations and controls of all blocks; calibration equations are not expanded by the code (witness)"
 },
 "C08": {
  "note": "both directions and uniqueness, for every interpretation of operators/functions; the name-clash case is refuted by a witness"
 },
 "C09": {
  "note": ""
 },
 "C10": {
  "note": "one identity per auxiliary variable within a block; false across blocks that share a deep lag (witness)"
 },
 "C11": {
  "note": "same tree/meaning for expressions without the precedence shapes the printer loses; the losing shapes, lost tags and lost shock priors are exhibited"
 },
 "C12": {
  "note": "for equations without steady-state symbols and any hash order; ss equations raise"
 },
 "C13": {
  "note": "for every expression"
 },
 "C15": {
  "note": "cycle detection exact, same values; resolved except self references, which are silently left (witness)"
 },
 "C43": {
  "note": "holds when no component is declared twice; false otherwise (witness)"
 },
 "C14": {
  "status": "partial",
  "note": "finite and infinite discounted sums, absent variables, default discount factor and steady-state symbols raise; for a time-varying discount factor the result is wrong beyond one lag (C14_time_varying_violated)"
 },
 "C20": {
  "note": "numbering and component placement for every parsed block"
 },
 "C21": {
  "status": "partial",
  "note": "trichotomy, duplicates and computed values proved; a name defined in two classes (e.g. parameter and calibrating equation) is not rejected (witness)"
 },
 "C22": {
  "status": "partial",
  "note": "Lagrangian value, one multiplier per constraint, distinctness proved; the record is right only when no multiplier is named and constraints start at number 1; three witnesses where it is lost/misplaced/shared"
 },
 "C51": {
  "note": "every expression; the two converters in the repository give zero-forms of opposite sign (both proved)"
 },
 "C23": {
  "note": "equations, their values and first-order conditions for every block that solves; sufficient conditions for solving; no constraints => AttributeError is exhibited"
 },
 "C48": {
  "status": "partial",
  "note": "holds for blocks without deep indices; false with a second lag of a control (witness: the b**2*x[2] term is missing)"
 },
 "C49": {
  "status": "partial",
  "note": "written date only; other dates survive (witness)"
 },
 "C50": {
  "status": "partial",
  "note": "holds when the solver returns a same-date variable or constant; log utility and offset dates are refuted"
 },
 "C16": {
  "note": "Exact: counts of duplicate reports per block and per model, and has_errors iff some duplicate exists."
 },
 "C17": {
  "status": "partial",
  "note": "The claim fails as stated: preprocess(validate=True) calls result.validate(raise_on_error=False), so it never raises semantic errors (C17_validate_ignored, C17_semantic_errors_accepted). What holds is proved in C17_explicit_validate_partial."
 },
 "C18": {
  "status": "partial",
  "note": "check_undefined_variables reads only right-hand sides; C18_left_hand_side_missed exhibits the missed warning. Exact characterisation for right-hand sides and for parameters is proved; C18_full_partial: what the complete validate_model pipeline reports of this kind."
 },
 "C19": {
  "status": "partial",
  "note": "Merging of one class of parameters is proved exact; violated across classes (C19_cross_class_violated) and for blocks sharing a name (C19_same_name_violated)."
 },
 "C52": {
  "status": "partial",
  "note": "Merging proved exact; closure of the equations under variables+shocks proved for models without definitions (C52_closed_partial) and for models whose blocks use their definitions at the date they are written (C52_closed_defs_partial, hypothesis DefsNow). Without that the claim is false in the code: a definition used at another date survives in the equations (C49)."
 },
 "C53": {
  "status": "partial",
  "note": "Proved for blocks with distinct names; violated for equal names and for a steady-state block named STEADY."
 },
 "C54": {
  "status": "partial",
  "note": "Values proved for the first steady-state block; later ones are ignored (C54_first_block_only). Full substitution: C15_resolved_partial."
 },
 "C55": {
  "status": "partial",
  "note": "Linked for priors of the same or an earlier block; violated for later blocks."
 },
 "C56": {
  "note": "Exact, for distinct base names."
 },
 "C29": {
  "note": "Exact formula proved for every sequence of Jacobians; equal to the block-tridiagonal derivative matrix only when no derivative zero in period 0 is nonzero later (C29_violated, C29_singular_violated show the failure end to end)."
 },
 "C46": {
  "note": "Soundness for every expression incl. parentheses; completeness for single-operator chains; expressions mixing operators always raise (C46_mixed_violated)."
 },
 "C57": {
  "note": "Model.parameters fully specified; the per-period consistency holds when all compiled parameters are free and fails for deterministic ones (C57_stale_violated)."
 },
 "C32": {
  "note": "Exact real arithmetic. Merit evaluated by the user's merit_fun must agree with the residual function (ConsistentMerit)."
 },
 "C33": {
  "status": "partial",
  "note": "Proved for a fresh solver object. C33_reuse_violated shows the leak: the history deque belongs to the globalization object and init does not clear it."
 },
 "C34": {
  "note": "Any Jacobian, residuals and linear solver; exact real arithmetic. Also: CG loop never divides by a zero direction, and the Steihaug step always has positive predicted reduction."
 },
 "C35": {
  "note": "HonestStep is proved for every solver of the package. C35_success_without_root records that success may come from the step test alone."
 },
 "C60": {
  "note": "Exact real arithmetic; solver exceptions are none."
 },
 "C24": {
  "note": "Closed-form Cobb-Douglas FOC = derivative of the Lagrangian (per control and for the whole solved block) for any arity/exponents, with the output on the left, no definitions, control only at its own date. Proved false otherwise: flipped constraint (sign error), definitions (not substituted in the objective), lagged input (term lost), unnamed multiplier in a block with a definition (RuntimeError). sympy's expand is an oracle that must keep values near the point."
 },
 "C25": {
  "note": "Closed-form CES FOC = derivative of the Lagrangian for any arity, shares and elasticity under the same restrictions; flipped constraint proved wrong. sympy canonicalisation/simplify are oracles whose required properties are stated."
 },
 "C26": {
  "note": "removed equations, absence and kept solutions for every system; extension of solutions back to the original needs the removed definitions to be solvable for the removed variable (C26_definition_solvable gives it for the substituted ones, C26_unsolvable_violated shows a dropped equation that restricts other variables)"
 },
 "C27": {
  "note": "exact equivalence of solutions when every pinning equation has one root and speaks about a dated symbol; sympy's first root of several and steady-state pins break the claim (C27_first_root_violated, C27_steady_state_violated), unsolvable pins raise"
 },
 "C28": {
  "note": "sort key comparable for all names, natural order proved (numeric and textual part), membership exact when names carry one set of assumptions, rejection exact; ties x1/x01 leave the order to the hash order (C28_tie_violated) and double assumptions lose a symbol"
 },
 "C36": {
  "note": "over the reals (no rounding); both directions: returned pair is the unique solution, paths of the rule solve the model for every mean-zero next shock, and the converse"
 },
 "C61": {
  "note": "distance to any true solution by induction over the passes, exactness when A2 vanishes, report and kernel agreement; violated: success is reported when passes run out with A2 not converged (C61_success_violated), the A2 message is unreachable, and a failure raises from numpy instead of being reported (C61_failure_violated). The scan version with its jitter: exact error recurrence (C61_scan_jitter), and C61_scan_jitter_violated: with C=0 it returns a matrix that solves the system with B+jI, never the model's."
 },
 "C62": {
  "note": "exact with the jitter term made explicit, for every differentiable curve of solutions; existence of the adjoints characterised"
 },
 "C37": {
  "note": "Closed form at every horizon, individual responses equal size times the column of T^t R, superposition for every specification that names all shocks, scaling, zero shock. Partial because the full claim is false: a dictionary naming one shock with return_individual_shocks=False applies its size to every shock (C37_dict_joint_violated), one naming two or more but not all raises (C37_dict_joint_raises). orthogonalize_shocks has no effect (C37_orthogonalize_ignored). Random draws and the Cholesky factor are arguments of the model."
 },
 "C38": {
  "note": "The check accepts exactly the calls with one specification. The rest of the claim is false of the code: no specification (the documented default) and several specifications both raise tuple-unpacking errors instead of the explanatory one (C38_violated)."
 },
 "C47": {
  "note": "The Q matrix is exactly the one described (C47_Q); the stationary covariance and every lag are the covariances of a process of the model (stated for an arbitrary covariance form); uniqueness, limit, symmetry and semidefiniteness in stable models. Partial because the claim is false for shock_std_dict (never reaches autocovariance_matrix, C47_dict_violated) and for a list of standard deviations (C47_list_violated). scipy's Lyapunov solver is assumed to return a solution of its equation."
 },
 "C63": {
  "note": "Holds for T, R; for the Jacobians it fails with verbose=False (C63_linearize_violated)."
 },
 "C64": {
  "note": "Holds when the numbers of variables and shocks differ; violated when they are equal (C64_equal_sizes_violated)."
 },
 "C65": {
  "note": "Holds for real residuals; NaN residuals are accepted (C65_nan_violated)."
 },
 "C39": {
  "note": "Orders are permutations with the documented groups and counts (C39_equation_order, C39_variable_order), zero blocks of A and C, and the matrices handed to the user are in the user's order with entries that are the real derivatives at the steady state with respect to levels or logs (C39_user_matrices). Findings: duplicate variables raise IndexError; asking for logs of a non-positive steady state has no effect unless declared positive (C39_negative_request_ignored). Not modelled: CSE, pytensor compilation, the symbolic cache."
 },
 "C66": {
  "status": "partial",
  "note": "Flags proved when the steady-state dictionary lists variables then calibrated parameters in order (C66_flags, C66_selected, C66_unknown). The full property fails for a steady state given in another order: values are matched by position (C66_position_partial)."
 },
 "C67": {
  "note": "Iff-characterisation of Block._validate_initialization against an independent specification (WellFormedBlock), the documented exceptions, and that every constructed block passed it."
 },
 "C68": {
  "note": "LAPACK (ordered QZ, SVD) enters through contracts in exact arithmetic (SortedQZ, ThinSVD); every discarded singular value and every column of C within tolerance is assumed exactly zero. C68_solution, C68_unique, C68_real, C68_wrappers cover the claim for all systems meeting them; concrete rational instance in GensysExample.lean. Finding: with coincident zeros GensysWrapper.perform raises an unpacking error while the numba wrapper returns zeros and False."
 },
 "C69": {
  "note": "C69_existence, C69_uniqueness, C69_solved_iff, C69_coincident, C69_count, C69_messages. Finding: 'unique but does not exist' (codes 0, 1) is reported as 'Unknown return code' (C69_messages)."
 },
 "C40": {
  "note": "C40_report is the exact decision table of check_bk_condition; C40_unstable_count shows the counted number is the number of pairs with |beta| >= |alpha| when no root is within the tolerance of the unit circle; C40_necessary: whenever gensys returns a solution the check passes; findings proved: C40_not_sufficient (check passes with no solution), C40_sign_flipped (reported values are minus the roots, because the already negated Gamma_0 is negated again). Division by alpha + tol = 0 is excluded."
 },
 "C70": {
  "note": "system_to_steady_state, via C13; simplify is an oracle that keeps values."
 },
 "C71": {
  "note": "Over the reals; pytensor graph evaluation is not modelled."
 },
 "C72": {
  "status": "partial",
  "note": "Simultaneous substitution (graph_replace). Violations: equations without unknowns are dropped even when false (C72_dropped_violated); a given value mentioning another known variable brings it back (C72_remains_violated)."
 },
 "C73": {
  "note": "return_symbolic=True zips all variables with the outputs: right only when all values are known (C73_symbolic_partial), mislabelled otherwise (C73_symbolic_violated)."
 },
 "C74": {
  "note": "Via C15 (flatten_substitution_dict). Auxiliary definitions that mention themselves are excluded in C74_auxiliaries_gone (cf. C15_self_reference_violated)."
 },
 "C75": {
  "note": "Fully proved; the consequence that a hyper-parameter used in an equation is reported as an orphan is C41_hyper_in_equation_violated."
 },
 "C76": {
  "status": "partial",
  "note": "The split itself is proved. The last clause fails when the parameter is declared in a later block than the shock (C76_later_block_violated)."
 },
 "C77": {
  "status": "partial",
  "note": "Use is looked for in equations and steady-state relations only: a deterministic parameter used only by a calibrating equation is dropped and then undefined (C77_calibration_violated)."
 },
 "C78": {
  "note": "Closedness is partial because definitions may mention undefined parameters (C41_orphan_violated); solutions are kept when pinned variables have unique constant values (C27)."
 },
 "C79": {
  "status": "partial",
  "note": "User bounds and assumed bounds are respected by every point reported through a transform (C79_user_bound, C79_assumed_bound), the transforms are bijections (C79_bijective) and the transformed system is equivalent (C79_same_system). Violated for unit_interval variables (upper bound ignored), bounds keyed by the plain variable name (ignored), one-sided bounds (replace the declared positivity), default start outside the bounds (NaN)."
 },
 "C80": {
  "note": "Names of the model distinct (C78). The message for names without any close match is an IndexError of an empty list (C80_unknown)."
 },
 "C81": {
  "note": "Complete characterisation of acceptance and of both errors."
 },
 "C82": {
  "status": "partial",
  "note": "Values kept and complete: C82_fixed_kept, C82_analytic_kept, C82_every_variable, C82_solved, C82_linear. Calibrated parameters are present whenever a solver or fixed values are involved (C82_calibrated_partial); with a fully analytic steady state the call raises (C82_calibrated_violated). Linear models ignore fixed values (C82_linear_fixed_violated). Solvers and graph evaluation are arbitrary functions."
 },
 "C83": {
  "status": "partial",
  "note": "Exact characterisation when everything is known (C83_known). Otherwise success means: the optimizer said so, or the equations still having unknowns hold (C83_success_partial). Violated: the optimizer's verdict is not checked (C83_optimizer_violated) and equations without unknowns are dropped unchecked (C83_dropped_violated)."
 },
 "C84": {
  "status": "partial",
  "note": "Equations determined by the fixed values alone are checked (C84_checked) and reported exactly (C84_reported); equations determined by fixed together with known values are not (C84_override_violated). NaN residuals pass."
 },
 "C85": {
  "note": "Evaluation is an arbitrary function that depends on the inputs of the expression only."
 },
 "C91": {
  "status": "partial",
  "note": "Reordering, residual and potentials proved for all orders. The diagnostic norms are correct when the solver's order is the user's and T loads on the masked variables only (C91_norms_partial); violated otherwise (C91_norms_violated), a finding."
 },
 "C92": {
  "note": "Proved for every accepted configuration along every trajectory."
 },
 "C93": {
  "note": "Chain rule and lag chains proved for all equations. Steady-state symbols are not checked against the model (C93_unknown_steady_state_accepted), a finding."
 },
 "C94": {
  "status": "partial",
  "note": "The covariance is the declared one exactly when measurement_error is a prefix of observed_states (C94_prefix_iff_partial); otherwise variances land on other series (C94_violated), a finding."
 },
 "C95": {
  "status": "partial",
  "note": "Acceptance characterised exactly; history independence holds for calls that observe variables or equations (C95_reconfigure) and is violated for names of auxiliary states of the earlier configuration (C95_history_violated)."
 },
 "C96": {
  "status": "partial",
  "note": "Soundness for all inputs; exact table for aligned calendars; rows are lost with gaps and misplaced for period-end dates (two _violated theorems)."
 },
 "C97": {
  "note": "Proved for lag_step >= 1; lag_step=0 is not refused and acts as 1 (C97_zero_step_partial)."
 },
 "C86": {
  "status": "partial",
  "note": "Labels, norms and parameters proved for every draw and every stage outcome with one core. With several cores the table pairs results and draws wrongly (C86_parallel_violated), NaN norms count as success, BK exceptions escape, an unknown solver is reported as perturbation, keyword column names are lost: findings."
 },
 "C87": {
  "status": "partial",
  "note": "Engines are arbitrary functions. Proved for all bounds, priors, sizes and engines; a Generator seed is dropped by all methods but random, the HDI fallback covers less than asked and is reversed for p <= 1/2 (violated parts)."
 },
 "C88": {
  "status": "partial",
  "note": "Exact meaning of the norms proved; they do not look at columns the solution ignores and truncate small entries first (violated parts). C88_solves gives the full claim under the stated conditions."
 },
 "C89": {
  "status": "partial",
  "note": "LAPACK enters as an oracle with its specification. on_failure=ignore raises for a failed cycle reduction, the solver name is ignored for backward-looking models and the steady-state success flag is ignored (violated parts)."
 },
 "C90": {
  "note": "Graph construction and compilation are arbitrary functions of their inputs; in-place modification of cached graphs by compile is not modelled."
 },
 "C99": {
  "note": "pytensor primitives (concatenate, atleast_Nd) are modelled by their definitions on real arrays."
 },
 "C100": {
  "status": "partial",
  "note": "Transpose and split rewrites are proved to preserve the value at any place of any graph. The block-diagonal rewrite is proved under the hypothesis that blocks standing in the same grid column have the same width (C100_block_diag_partial); the code does not check this and C100_block_diag_violated shows a valid 2x3 graph turned into a 2x4 one. Static type information is assumed sound (Static.Sound)."
 },
 "C98": {
  "status": "partial",
  "note": "Values, gradient, symbolic eigenvalues, their meaning as growth factors and correctness of the count for all sufficiently small eps are proved. Two parts are refuted: with the fixed eps = 1e-8 the count can be wrong for eigenvalues within about 1e-8 of the unit circle (C98_fixed_eps_violated), and eigenvalue_sensitivity differentiates at a fixed steady state (C98_sensitivity_violated). LAPACK's eig enters as a contract (EigOracle), shown satisfiable for every real matrix."
 },
 "C101": {
  "note": "sympy's canonical form enters as a hypothesis (no reciprocal of a reciprocal, fraction or one-factor product); the order of terms and factors is sympy's and arbitrary here. The text is modelled on tokens."
 },
 "C102": {
  "status": "partial",
  "note": "Proved for non-empty lists whose names fit on a line; violated for empty lists and for a first name that does not fit (a bare keyword statement is written)."
 },
 "C103": {
  "status": "partial",
  "note": "Residuals proved equal for both branches. Closedness proved when equations and closed forms use free parameters only; violated for deterministic/calibrated parameters and for closed forms mentioning other steady-state values."
 },
 "C104": {
  "status": "partial",
  "note": "Analytic branch proved relative to sp.cse's contract; initval values are rounded to 3 decimals; violated (AttributeError) with calibrated parameters."
 },
 "C105": {
  "status": "partial",
  "note": "Values are rounded to three decimals (violated for small values), shock standard deviations are always 0.01 (violated)."
 },
 "C106": {
  "note": "Model: Model/Lexer.lean; spec: Model/GcnSpec.lean. ASCII letters and digits; which error a rejected text gets is not modelled."
 },
 "C107": {
  "status": "partial",
  "note": "Model: Model/Grammar.lean (recursive descent with fuel; acceptance = some fuel suffices); spec: Model/GrammarSpec.lean (inductive grammar). C107_grammar/parse are equivalences, both directions for all texts. C107_prior_prefix_violated: `delta = Beta_bar / 2;` in calibration is rejected (pp.one_of without word boundary). Simplified: layout between a sign and its digits and numbers like .5e3 accepted in priors; words of an option key joined by one space; error messages not modelled."
 },
 "C108": {
  "status": "partial",
  "note": "Holds for printable models without tryreduce (C108_print_parse_partial; Printable is a decidable-in-spirit list of naming and number conditions in Model/PrintSpec.lean, satisfied by every model parse_gcn returns except for expressions outside Expr.Stable and calibration names prefixed by a distribution). For models with a tryreduce list the claim is false: C108_tryreduce_violated."
 },
 "C109": {
  "status": "partial",
  "note": "Proved for texts without the character '|' (and suggestions without ','). Fails when the offending text contains the separator (C109_separator_violated), for every semantic error moved (TypeError) and a moved grammar error forgets expected/found (C109_moved_violated). Which position pyparsing reports is not modelled."
 },
 "C110": {
  "status": "partial",
  "note": "Proved for every tab-free text and position; line and source line for every text. Fails: columns behind tabs (C110_tab_violated), end column of variables with a date other than [] (C110_variable_violated). '\\r', '\\f' and other breaks splitlines knows are not modelled."
 },
 "C111": {
  "status": "partial",
  "note": "Context lines and order proved for every error and source; alignment of the carets up to line 9999 and proved to fail from line 10000 on (C111_aligned_violated). Colours off."
 },
 "C112": {
  "status": "partial",
  "note": "C112_written: all files whose model blocks have distinct names and whose definitions are dated t-1..t+1, along paths on which the definitions hold. C112_complete: additionally no controls and no variable named like an auxiliary y__lagK / y__leadK. C112_solutions / C112_solutions_defs: files whose blocks are plain, Bellman or one-period problems (controls dated t or t-1; with or without definitions, defined variables moving with the controls), variables dated t-1..t+1: solutions of the loaded model are exactly the paths where the written equations hold and the problems are stationary. C112_stationary / C112_stationary_defs: also the infinite horizon. simplify_blocks=True is C125. Missing: objectives that are neither V[] = u + beta*E[][V[1]] nor about one period, definitions that use other definitions at other dates, deeper dates, functions outside their domains."
 },
 "C113": {
  "status": "partial",
  "note": "C113_layout, _disjoint, _centred and _ticks prove the layout for all sizes; C113_empty_violated shows the failure for no panels."
 },
 "C114": {
  "status": "partial",
  "note": "C114_irf is an exact characterisation of plot_irf; the _partial and _violated theorems state where the other figures show something else than asked for."
 },
 "C115": {
  "status": "partial",
  "note": "C115_filter, _drawn, _limits, _arrows hold for all inputs; C115_count_partial / C115_count_violated: modulus ten and NaN are neither drawn nor counted."
 },
 "C116": {
  "note": "C116_summary, C116_scatter, C116_density; the labels are those of the solvability check (FailStep)."
 },
 "C117": {
  "status": "partial",
  "note": "Matrices, acceptance and steady state proved for closed models (ClosedModel). Violated when a declared value mentions another variable found by propagation: it stays in the matrices (C117_analytic_violated). rewrite_pregrad and pytensor compilation not modelled."
 },
 "C118": {
  "status": "partial",
  "note": "Exact arithmetic. Violated: roots closer to 1 than realsmall are counted depending on their order (C118_order_violated). Finding: the flag looks at the last pair only (as documented), unlike gensys itself (C118_flag_last_only)."
 },
 "C119": {
  "note": "The caches on the Model object are not modelled (equations and default parameters do not change)."
 },
 "C120": {
  "status": "partial",
  "note": "Proved for every GCN text: free parameters, deterministic parameters, calibrating equations, shocks, tryreduce list, what PreliZ is asked to build for each prior (PreliZ itself is an uninterpreted predicate saying which calls succeed), and Normal shocks with named arguments. Violated by the code: a shock distribution with numbers only, or not Normal, is dropped without a message (C120_shock_dists_violated)."
 },
 "C121": {
  "status": "partial",
  "note": "Proved for shocks dated in the current period, at points where the equations are smooth: residual, Jacobian, stacked path and stacked Jacobian, exact success condition, names, and the list in the error. Violated by the code: calibrated parameters in equations make compilation fail (C121_calibrated_violated); a lagged shock is read as a current one (C121_lagged_shock_violated)."
 },
 "C123": {
  "status": "partial",
  "note": "Proved for the residual, error, Jacobian, gradient, Hessian and Hessian-vector product, for the refusals and for start, method, tolerance, budget and bounds. Violated by the code (proved): use_jac=False still passes the gradient unless use_hessp=False too; the documented default method trust-krylov is really trust-ncg; maxfev/maxiter given inside options is overwritten by 5000; the l2-norm gradient is NaN at an exact steady state; the gradient judged after root without use_jac is identically zero. Not modelled: jitter of the start, further keywords that are passed through, floating point."
 },
 "C124": {
  "status": "partial",
  "note": "Proved for the counts, the eliminated names, the steady-state values, the wrapping of names and the warning. Violated (C124_priors_violated): the number of parameters with priors is the number of priors, so a prior on a name that is no parameter gives '1 / 0 has a defined prior'."
 },
 "C122": {
  "status": "partial",
  "note": "Proved: parameters and data are of the same draw, columns, rows and number of missing values, when the call is accepted, what is left behind, which checks are in the sampled model. Violated: the default keyword arguments are discarded and could not be passed on (C122_defaults_violated); nothing is modified in place although the documentation says so (C122_in_place_violated); fractions outside [0, 1] are not always refused (C122_range_violated)."
 },
 "C125": {
  "status": "partial",
  "note": "Proved for eliminations of the announced kind (multiplier replaced by a variable of the same date or a constant), generated multipliers at dates t-1..t+1 and in one block only. Without the first condition the claim is false of the code: C50_log_utility_violated and C50_offset_violated exhibit eliminations that change the solutions. sympy's solver, evaluation and set order are oracles constrained by SimpOps.Lawful."
 },
 "C41": {
  "status": "partial",
  "note": "Orphans and superfluous parameters are characterised exactly (C41_orphan, C41_extra, C41_outcomes). The claim as stated holds when definitions mention only defined parameters (C41_orphan_partial); it is false of the code otherwise: a parameter without a value that some definition mentions is not reported (C41_orphan_violated, C41_hyper_in_equation_violated)."
 },
 "C126": {
  "status": "partial",
  "note": "The whole text is proved (message, arrow, rows, caret row, note; plain message without source or with a place outside it), and that carets lie exactly under the offending name for texts without tabs before it and with only newline breaks. C126_tab_violated and C126_break_violated prove the claim false behind tabs and after other line breaks that str.splitlines honours (form feed, carriage return...). Which place is recorded (C126_place) and that the three loading errors carry it (C126_errors) are proved. Dates other than X[] in calibrating equations are C110."
 },
 "C127": {
  "status": "partial",
  "note": "Equations, blocks, metadata, calibration dictionaries and shocks are proved in full. Models: proved for distinct block names; C127_model_violated: of two blocks of the same name only the last is left. Variables: proved to be exactly the controls and the variables alone on a left-hand side; C127_variables_violated: variables occurring only inside expressions are missing. C127_arrow_violated: a converted calibrating equation, read as an equation, is not the condition written (it equates the parameter with the residual). Not modelled: equations sympy evaluates to booleans, the text of left-hand sides that are no symbol."
 },
 "C128": {
  "status": "partial",
  "note": "Proved for models with the same lags and name of the variable dimension (C128_figure_partial), with offsets that keep points apart (C128_apart), the legend and the refusals. C128_lags_violated: models with other lags are drawn at the first model's lags. C128_dims_violated: models with differently named dimensions cannot be drawn together. C128_cols_violated: n_cols=None raises TypeError. C128_reference_violated: the legend announces data no panel shows. Not modelled: how the intervals (HDI) are computed, line styles, sizes."
 },
 "C129": {
  "status": "partial",
  "note": "Covariance heat maps, estimated matrices, pair plots, time series and shock legends are proved in full; which parameters count as varying is proved for draws apart by more than the threshold. Violated: C129_heatmap_violated (a non-square table is refused: numbers of ticks exchanged), C129_parameters_violated (parameters varying only below 1e-9 are taken for constant), C129_success_violated (a parameter called success is never shown), C129_sensitivity_violated (precomputed sensitivities at other values), C129_scenario_legend_violated (empty first scenario name: no legend). Not modelled: densities, colours, number formats, explicit thresholds of annotate_heatmap."
 },
 "C130": {
  "note": "C130_first_order: the matrices of linearize_model are the derivative of the equations along any scaled deviation; C130_residual: for any solver; C130_irf: loaded equations for exact solvers; C130_written: equations as written in the file; C130_paths_exist: such paths exist. Hypotheses: variables have different names and are not shocks, equations smooth and zero at the steady state, no lead hidden by the gensys tolerance, and C = 0 when the model is declared backward looking; for dates deeper than one period the auxiliary variables of the path must be what they stand for (ShiftsHold). Example: a one-equation nonlinear file, from text to responses."
 },
 "C131": {
  "status": "partial",
  "note": "Value conversions and pickling hold in full. Sorting symbols holds for dates t-1, t, t+1 and ss; deeper dates become parameters (C131_sort_deep_violated). copy() and to_string() of a SteadyStateResults lose the class and the success flag (C131_success_lost_violated). float(sp.Float(x)) = x is a hypothesis of the round trip; sorting symbols in place is not stated."
 },
 "C132": {
  "note": "Whole run, composed from C30, C35, C57, C58, C121 and the reading of the file: residual rows of the equations as written (C132_residuals, C132_written), the verdict (C132_verdict), descent with the default solver (C132_default_improves), solved guesses (C132_solved_guess), the reported matrix is the matrix of derivatives up to the first-period sparsity pattern (C132_jacobian), guesses of the wrong shape are refused (C132_guess_shape). Exact reals; for dates deeper than one period the auxiliary variables of the path must be what they stand for (ShiftsHold). The steady state is a function of the parameters (C71, C83)."
 },
 "C58": {
  "status": "partial",
  "note": "The vector is the user's value or the steady state's (C58_boundary); fails when x0 is a dictionary of Python integers: the user's float conditions are truncated (C58_integer_violated). C58_types_partial says when the types do not matter."
 },
 "C133": {
  "status": "partial",
  "note": "C133_equations (the steady-state system is the file's equations at rest, as written) and C133_known (all variables known or fixed: success implies every written equation holds at every date up to 1e-8) are complete; C133_written_partial has the two loopholes of C83 (the optimizer's own verdict is believed, equations without unknowns are dropped), both shown real by C83_optimizer_violated and C83_dropped_violated. For dates deeper than one period the auxiliary variables rest with the variables they stand for (ShiftsHold)."
 },
 "C134": {
  "status": "partial",
  "note": "Trust-region and damping solvers: proved for every history. Armijo line searches: every solve_perfect_foresight call, and sparse_root calls before the object has been passed to solve_perfect_foresight. C134_stale_violated: solve_perfect_foresight leaves its merit function in the passed object, so later sparse_root calls fail or raise. C134_history_violated: the non-monotone line search keeps the merits of earlier calls and accepts steps a new object refuses."
 },
 "C135": {
  "note": "text -> lexer/grammar model -> loader -> exported block -> Dynare grammar. sympy's canonical form of the loaded equations enters as hypothesis SameOn (same values at every date); steady state references either all in closed form or numbers (the mixed/undeclared cases are the C103 *_violated theorems)."
 },
 "C136": {
  "status": "partial",
  "note": "Composition of C117, C91/C92, C36 and C130 from the file text. The kernels giving T are arbitrary (the bound is in terms of the residual the code itself checks). Violated for backward_direct on a model with leads: nothing refuses it, the residual of T can be zero while R is wrong (C136_backward_violated)."
 },
 "C137": {
  "status": "partial",
  "note": "C137_root, C137_count, C137_verdict, C137_solved and, down to the file, C137_equations, C137_written. C137_singular_violated: the model 0 = 0, for which every number is a root, is reported as satisfying the condition (0/0 is not counted as unstable). Exact reals; roots within the tolerance of the unit circle are excluded (Separated); leads above the tolerance (CleanLeads)."
 },
 "C138": {
  "note": "C138_equilibrium: the iff for gensys' T and R; C138_solve_model: through solve_model; C138_moments: stationary covariance (uniqueness, limit, stationarity) and autocovariances. Random variables are elements of a real vector space with a symmetric covariance form whose null vectors are zero (second-order theory); conditional expectations are self-adjoint projections with the tower property. gensys' exactness assumptions (exact QZ and SVD, CleanLeads) as in C68; the Lyapunov solver is assumed exact (LyapSpec, as in C47). Example: a one-variable model with a lead, i.i.d. unit shocks, variance 9/7."
 },
 "C139": {
  "note": "C139_table, C139_sorting, C139_reordered (matrices), C139_writing_order (variable and equation lists through linearize_model), C139_message, C139_summary. QZ exact; the reordering theorems assume the roots are separated from the unit circle by the tolerance, CleanLeads and a nonzero characteristic polynomial (as C137). NumPy's argsort is any order sorted by modulus (no NaN). Example: a two-variable model and its swapped version."
 },
 "C140": {
  "note": "C140_solution: gensys, entries of T and R by name. C140_solvable: gensys solves one exactly when it solves the other (no coincident zeros reported for either). C140_other_solvers: cycle reduction and the backward solver, including failures. C140_covariance, C140_irf: the reported numbers by name. Exact arithmetic; forward columns below the tolerance are zero (CleanLeads)."
 },
 "C141": {
  "note": "C141_solution: gensys, T and R in units of levels. C141_solvable (also for C142): gensys solves one exactly when it solves the other, when no coincident zeros are reported for either. C141_irf, C141_covariance: the reported numbers. Exact arithmetic; forward columns below the tolerance are zero in both versions (CleanLeads); gensys only: cycle reduction stops on a norm that depends on units."
 },
 "C142": {
  "note": "C142_solution: equations with proportional derivatives at the steady state give the same T and R under gensys; C142_multiplied, C142_exchanged, C142_logs: the rewritings promised are of that kind; C142_equivalence: in any combination; solvability is C141_solvable. Exact arithmetic, CleanLeads for both versions."
 },
 "C44": {
  "note": "C44_assumptions: what the assumption blocks yield. C44_symbol: the flags of a converted variable at any date, whatever dictionary the caller gives: declared values win, real and finite otherwise, nothing else. C44_file: the two together. sympy's own inferences from the flags and its refusal of contradictory flags are not modelled."
 },
 "C143": {
  "note": "C143_covariance, C143_correlations, C143_decay, C143_responses; C143_solved: gensys solutions are stable in the sense used. A covariance matrix given by the user is assumed to be one (the code does not check it). Variables without variance: numpy divides by zero (NaN), real division gives 0. Exact arithmetic."
 },
 "C144": {
  "note": "C144_perfect_foresight: any solver object, both forms of the default guess; the equations need only hold up to 1e-10 at rest. C144_simulate: all simulated values are zero. Responses to zero shocks: C37_zero."
 },
 "C145": {
  "status": "partial",
  "note": "Proved: the catalog answers exactly for its 24 codes, with distinct titles and help texts that list name, title, explanation, causes and fixes (C145_catalog, C145_distinct); the full decision which code an error of pyparsing's own gets (C145_code) and what the report then is (C145_report, C145_annotation); a missing semicolon, an unclosed brace or parenthesis and a component after an unfinished statement are reported as such (C145_semicolon, C145_unclosed, C145_parenthesis, C145_component); codes of parse_expression (C145_expression, C145_expression_code). False of the code: an expected ';' before '(' is reported as unbalanced parentheses; the offending word is quoted twice; parse_expression shows the internal separators and code of the failure in its message, reports a wrong index of a variable named like E008 as an empty call, and never gives its message about a trailing operator. What pyparsing reports for a text is an input."
 },
 "C146": {
  "note": "C146_rule: any start, a shock in the first period, any T, R solving the two matrix equations; C146_impulse: the same in terms of simulate; C146_backward: C = 0, shocks in every period, any terminal condition; C146_matrices: linearize_model returns A, B, C, D. LinearModel says linear on every path; hypotheses met by x = d + a x[-1] + c x[1] + e."
 },
 "C147": {
  "status": "partial",
  "note": "Fails as documented for two queries: C147_multiplier_violated (str() of an equation with a multiplier is not an equation) and C147_calibration_violated (all_parameters leaves out the calibration). The rest is proved in full. A set is a list without repetition; numbers that are not whole print as any text of that value, str of a float being one."
 },
 "C148": {
  "status": "proved",
  "note": "C148_layout (texts), C148_order (blocks permuted: success, blocks, equations, dictionaries; variables and names to reduce as lists when no two variables share a name), C148_solution, C148_other_solvers (policy matrices by name, from C140: exact arithmetic, and for gensys zero forward columns below the tolerance), C148_equations (solutions, Includes in Model/RewriteSpec), C148_shocks. C148_order asks that calibration statements set parameters (ParametersOnly) and that no two model blocks share a name, C148_equations that definitions are dated near t and model blocks have different names. The order of blocks does matter for a prior used by a shock before it is declared (C55_later_prior_violated), so C148_priors (priors and shock distributions, looked up by name) asks that the priors a shock names stand in its block (PriorsAtHand), and with two steady-state blocks the first counts (C54_first_block_only). C148_default, C148_default_layout C148_default_solution and C148_default_other_solvers are the same about load_gcn_file, for any solver and any order in which sets are iterated; C148_equations is about loading without simplification (C125 says what simplification keeps)."
 },
 "C149": {
  "note": "C149_same (without simplification), C149_default (with it), C149_priors. False of the code without the conditions: C149_tags_violated (@exclude is not printed: one equation more), C149_shock_priors_violated (the printed text never has priors on shocks), C149_tryreduce_violated (never loads). OneExtra is a limit of the model: it compares assumptions as ordered lists, and the printed text may keep another order. Numbers and shapes of expressions: Printable (Model/PrintSpec), as in C108."
 }
}