# Formal model of gEconpy in Lean 4 — design

## Approach

gEconpy is a Python library: a GCN parser, AST transformations, symbolic block solving (sympy), model building,
linear and nonlinear numeric solvers, statistics, state-space set-up and Dynare export.  The model is a *shallow* one:
every Python function that carries logic becomes a total Lean function on `List`/`Option`/`Except`/structures;
exceptions are values (`Except`), a mutation returns the new state, aliasing (where a property is about it) uses an
explicit heap of cells, loops become folds or structural recursion (fuel only where the code has an iteration bound, or
where a fuel bound is itself proved sufficient).  sympy expressions are an inductive type with an evaluation into a
field, into ℝ, or into an arbitrary interpretation of the operators, so "same meaning" is equality of evaluations for
every assignment or path.  Numeric code (numpy/scipy) is modelled over exact fields and real matrices; what LAPACK,
scipy and sympy return enters as an *oracle with a stated contract* (a hypothesis of the theorem), never as an axiom.

## Layout

* `lean/Verif/Model/*.lean` — the model; each definition cites file and lines of /repo.  `*Spec.lean`,
  `DynareGrammar.lean` — small separate specifications that do not mention the model's helpers.
* `lean/Verif/Props/*.lean` — the property theorems `Cnn_*` (namespace `GE`), each file with non-vacuity examples;
  helper lemmas live in per-file sub-namespaces.
* `MANIFEST.json` — property → theorem names, generated by `tools/manifest.py`.
* `seeded/LOG.jsonl` — mutation log: edits of the model in a scratch copy and which theorems failed; the mutants and
  the runner are in `tools/seeded/`.
* Theorem name suffixes: `_partial` — a proper part of the English property (the note says what is missing);
  `_violated` — the English property is *false* of the code, and the theorem proves the negation with a witness (the
  property then counts as partial, and the positive part that does hold is proved beside it).

## Per-property plan and result

The table is generated by `tools/design.py` from `properties.jsonl`, `MANIFEST.json` and `tools/design_how.json`.

<!-- table -->
| id | property | Props file | model and proof | status and limits |
|---|---|---|---|---|
| C01 | Symbol names identify (base name, time index) | Time | names as character lists; injectivity: the suffix after the last `_` determines the date | **proved**. name injective for every base name; safe_name for base names without +/- (all GCN identifiers); the collision for others is exhibited |
| C02 | Stepping through time is invertible; the steady state is absorbing only via errors | Time | symbol structure, stepping a steady-state symbol is an error value; algebra on Int | **proved**. stepping a steady-state symbol raises; the to_ss docstring promise that it is a no-op is refuted for every symbol (C02_docstring_violated) |
| C03 | String/sympy conversion of a SymbolDictionary round-trips | Containers, Containers2, Details | encode/decode of keys; round trip for t in {-1,0,1,ss}, counterexample family for all deeper dates | **partial**. holds for dates t-1,t,t+1,ss without name clashes; false for every \|t\|>=2 (C03_deep_index_lost) and for clashing names |
| C04 | A SymbolDictionary never mixes string and sympy keys | Containers | dictionary as state machine; invariant over every history of operations | **partial**. invariant over all histories except the two unchecked update() forms; both are shown to break it |
| C05 | Copies and merges do not change their operands | Containers, Containers2 | heap with shared metadata cells; frame theorem and aliasing counterexamples | **partial**. false as stated: copy, \| and to_ss share metadata with the receiver (three witnesses); frame theorem for the conversions that are safe |
| C06 | Moving a dictionary to the steady state keeps exactly the last value per variable | Containers | fold of the key map; invariant over the fold | **proved**. sympy-keyed dictionaries |
| C07 | Time-index expansion leaves only lags/leads of at most one period | ExpandTime | AST and collectors; structural induction | **partial**. all equations and controls of all blocks; calibration equations are not expanded by the code (witness) |
| C08 | Time-index expansion preserves the meaning of the block | Containers2, ExpandTime | solutions are paths Int -> value; equivalence of expanded and written block by extending/restricting paths, any interpretation of operators | **proved**. both directions and uniqueness, for every interpretation of operators/functions; the name-clash case is refuted by a witness |
| C09 | Time-index expansion is idempotent and inert on shallow blocks | ExpandTime | structural induction | **proved**.  |
| C10 | Time-index expansion keeps the system square | ExpandTime | counting identities and new variables; counterexample across blocks | **partial**. one identity per auxiliary variable within a block; false across blocks that share a deep lag (witness) |
| C11 | Printing an equation and parsing it again gives the same equation | Printer | printer to tokens and the operator-precedence parser; round trip on the stable fragment by induction, counterexamples outside | **partial**. same tree/meaning for expressions without the precedence shapes the printer loses; the losing shapes, lost tags and lost shock priors are exhibited |
| C12 | Stepping an equation shifts every date in it by one | Sym | symbolic expressions with evaluation on paths; induction, for any hash order | **proved**. for equations without steady-state symbols and any hash order; ss equations raise |
| C13 | Converting an equation to the steady state evaluates it on constant paths | Sym | evaluation on constant paths; induction | **proved**. for every expression |
| C14 | diff_through_time is the derivative of the whole discounted objective | DiffTime | HasDerivAt of finite and infinite discounted sums | **partial**. finite and infinite discounted sums, absent variables, default discount factor and steady-state symbols raise; for a time-varying discount factor the result is wrong beyond one lag (C14_time_varying_violated) |
| C15 | Flattening a substitution dictionary resolves every definition or reports a cycle | Flatten | DFS invariant with an explicit stack; values by induction on the topological order | **partial**. cycle detection exact, same values; resolved except self references, which are silently left (witness) |
| C16 | Block and model validation report exactly the duplicates | Validate | iff/counting characterisation over lists | **proved**. Exact: counts of duplicate reports per block and per model, and has_errors iff some duplicate exists. |
| C17 | preprocess(validate=True) rejects semantically invalid files | Validate | decision logic; negation with witness, positive part for explicit validate() | **partial**. The claim fails as stated: preprocess(validate=True) calls result.validate(raise_on_error=False), so it never raises semantic errors (C17_validate_ignored, C17_semantic_errors_accepted). What holds is proved in C17_explicit_validate_partial. |
| C18 | Undefined-variable warnings are exactly the used-but-undefined names | Validate | iff over collected names; witness for the missed side | **partial**. check_undefined_variables reads only right-hand sides; C18_left_hand_side_missed exhibits the missed warning. Exact characterisation for right-hand sides and for parameters is proved; C18_full_partial: what the complete validate_model pipeline reports of this kind. |
| C19 | Parameters of several blocks are merged without loss | Loader, Primitives | fold over blocks; exact keys and values | **partial**. Merging of one class of parameters is proved exact; violated across classes (C19_cross_class_violated) and for blocks sharing a name (C19_same_name_violated). |
| C20 | Every equation of a block gets its own number and stays in its component | ToBlock | induction over the component lists | **proved**. numbering and component placement for every parsed block |
| C21 | Calibration equations are sorted into exactly one parameter class | BlockValidate, Calibration | trichotomy by cases on the parsed equation | **partial**. trichotomy, duplicates and computed values proved; a name defined in two classes (e.g. parameter and calibrating equation) is not rejected (witness) |
| C22 | Every constraint of an optimisation block enters the Lagrangian with its own multiplier | Lagrangian | Lagrangian as symbolic sum; value by induction over constraints | **partial**. Lagrangian value, one multiplier per constraint, distinctness proved; the record is right only when no multiplier is named and constraints start at number 1; three witnesses where it is lost/misplaced/shared |
| C23 | Solving a block yields identities + constraints + objective + one first-order condition per control | Solve | solve_optimization as Except program; contents of the result, derivative values from C14 | **proved**. equations, their values and first-order conditions for every block that solves; sufficient conditions for solving; no constraints => AttributeError is exhibited |
| C24 | Cobb-Douglas closed-form first-order conditions equal the generic ones | ClosedForm, ClosedForm2 | closed forms over the reals; HasDerivAt of the Lagrangian for any arity | **partial**. Closed-form Cobb-Douglas FOC = derivative of the Lagrangian (per control and for the whole solved block) for any arity/exponents, with the output on the left, no definitions, control only at its own date. Proved false otherwise: flipped constraint (sign error), definitions (not substituted in the objective), lagged input (term lost), unnamed multiplier in a block with a definition (RuntimeError). sympy's expand is an oracle that must keep values near the point. |
| C25 | CES closed-form first-order conditions equal the generic ones | ClosedForm2 | same for CES with Real.rpow | **partial**. Closed-form CES FOC = derivative of the Lagrangian for any arity, shares and elasticity under the same restrictions; flipped constraint proved wrong. sympy canonicalisation/simplify are oracles whose required properties are stated. |
| C26 | try_reduce eliminates variables without changing the remaining model | Details, Simplification | systems as lists of expressions; solution-set inclusion both ways where true | **partial**. removed equations, absence and kept solutions for every system; extension of solutions back to the original needs the removed definitions to be solvable for the removed variable (C26_definition_solvable gives it for the substituted ones, C26_unsolvable_violated shows a dropped equation that restricts other variables) |
| C27 | Constant simplification substitutes only genuine constants | Simplification | same | **partial**. exact equivalence of solutions when every pinning equation has one root and speaks about a dated symbol; sympy's first root of several and steady-state pins break the claim (C27_first_root_violated, C27_steady_state_violated), unsolvable pins raise |
| C28 | Variables are classified by the dates at which they occur | Timing | collectors and sort key; permutation and order theorems | **proved**. sort key comparable for all names, natural order proved (numeric and textual part), membership exact when names carry one set of assumptions, rejection exact; ties x1/x01 leave the order to the hash order (C28_tie_violated) and double assumptions lose a symbol |
| C29 | The stacked Jacobian contains every derivative | PerfectForesight | assembly of the stacked matrix entry by entry; real derivatives | **partial**. Exact formula proved for every sequence of Jacobians; equal to the block-tridiagonal derivative matrix only when no derivative zero in period 0 is nonzero later (C29_violated, C29_singular_violated show the failure end to end). |
| C30 | Perfect-foresight residuals use the boundary conditions exactly at the ends | PerfectForesight | boundary functions by cases on the period | **proved**.  |
| C31 | Shock and parameter paths are placed in the right rows and columns | PerfectForesight | placement functions; entry by entry | **proved**.  |
| C32 | Monotone line search never increases the merit function | Details, SparseRoot, SparseRoot2 | line-search loop over abstract merit; invariant over iterations | **proved**. Exact real arithmetic. Merit evaluated by the user's merit_fun must agree with the residual function (ConsistentMerit). |
| C33 | Non-monotone line search stays below the worst recent merit of the same solve | SparseRoot2 | history deque; invariant within one solve, leak exhibited across solves | **partial**. Proved for a fresh solver object. C33_reuse_violated shows the leak: the history deque belongs to the globalization object and init does not clear it. |
| C34 | Trust-region steps stay inside the trust region and the radius stays in bounds | SparseRoot2 | dogleg and Steihaug CG over the reals; loop invariants | **proved**. Any Jacobian, residuals and linear solver; exact real arithmetic. Also: CG loop never divides by a zero direction, and the Steihaug step always has positive predicted reduction. |
| C35 | The root finder terminates and reports honestly | SparseRoot, SparseRoot2 | driver loop with max iterations; every exit characterised | **proved**. HonestStep is proved for every solver of the package. C35_success_without_root records that success may come from the step test alone. |
| C36 | Backward-looking and policy solutions satisfy the model's matrix equations | LinearSolve | real matrices; algebra and induction over dates | **proved**. over the reals (no rounding); both directions: returned pair is the unique solution, paths of the rule solve the model for every mean-zero next shock, and the converse |
| C37 | Impulse responses superpose | Simulate | impulse responses as recursion; closed form by induction over the horizon | **partial**. Closed form at every horizon, individual responses equal size times the column of T^t R, superposition for every specification that names all shocks, scaling, zero shock. Partial because the full claim is false: a dictionary naming one shock with return_individual_shocks=False applies its size to every shock (C37_dict_joint_violated), one naming two or more but not all raises (C37_dict_joint_raises). orthogonalize_shocks has no effect (C37_orthogonalize_ignored). Random draws and the Cholesky factor are arguments of the model. |
| C38 | Impulse-response arguments: exactly one shock specification is required | Simulate | decision table | **partial**. The check accepts exactly the calls with one specification. The rest of the claim is false of the code: no specification (the documented default) and several specifications both raise tuple-unpacking errors instead of the explanatory one (C38_violated). |
| C39 | Linearisation reorders equations and variables by a permutation | Details, Perturbation | permutations of equations/variables, entries are HasDerivAt derivatives at the steady state in levels or logs | **proved**. Orders are permutations with the documented groups and counts (C39_equation_order, C39_variable_order), zero blocks of A and C, and the matrices handed to the user are in the user's order with entries that are the real derivatives at the steady state with respect to levels or logs (C39_user_matrices). Findings: duplicate variables raise IndexError; asking for logs of a non-positive steady state has no effect unless declared positive (C39_negative_request_ignored). Not modelled: CSE, pytensor compilation, the symbolic cache. |
| C40 | Blanchard-Kahn check | BKCheck, GensysExample | decision table of the check over generalized eigenvalue pairs; link to C68 | **proved**. C40_report is the exact decision table of check_bk_condition; C40_unstable_count shows the counted number is the number of pairs with \|beta\| >= \|alpha\| when no root is within the tolerance of the unit circle; C40_necessary: whenever gensys returns a solution the check passes; findings proved: C40_not_sufficient (check passes with no solution), C40_sign_flipped (reported values are minus the roots, because the already negated Gamma_0 is negated again). Division by alpha + tol = 0 is excluded. |
| C41 | Orphan and superfluous parameters are reported exactly | Build, Details | set of used minus set of defined names, iff | **partial**. Orphans and superfluous parameters are characterised exactly (C41_orphan, C41_extra, C41_outcomes). The claim as stated holds when definitions mention only defined parameters (C41_orphan_partial); it is false of the code otherwise: a parameter without a value that some definition mentions is not reported (C41_orphan_violated, C41_hyper_in_equation_violated). |
| C42 | Suggestions are sound, bounded and sorted | ParserMisc | Jaro/Levenshtein-like score abstract; sortedness, bound, threshold by induction | **proved**.  |
| C43 | No declared component of a block is lost in parsing | Printer | induction over components, witness for duplicates | **partial**. holds when no component is declared twice; false otherwise (witness) |
| C44 | Assumption blocks give each variable exactly the declared assumptions | Flags, ParserMisc | fold over declarations | **proved**. C44_assumptions: what the assumption blocks yield. C44_symbol: the flags of a converted variable at any date, whatever dictionary the caller gives: declared values win, real and finite otherwise, nothing else. C44_file: the two together. sympy's own inferences from the flags and its refusal of contradictory flags are not modelled. |
| C45 | Steady-state propagation never overwrites user values and only adds implied ones | SteadyState | fix-point iteration; invariant over rounds | **proved**.  |
| C46 | Distribution number expressions are evaluated arithmetically | ParserMisc | evaluator of number expressions vs rational arithmetic | **partial**. Soundness for every expression incl. parentheses; completeness for single-operator chains; expressions mixing operators always raise (C46_mixed_violated). |
| C47 | Autocovariances use the covariance the user supplied | Statistics | covariance form; Lyapunov equation, limits, symmetry, semidefiniteness | **partial**. The Q matrix is exactly the one described (C47_Q); the stationary covariance and every lag are the covariances of a process of the model (stated for an arbitrary covariance form); uniqueness, limit, symmetry and semidefiniteness in stable models. Partial because the claim is false for shock_std_dict (never reaches autocovariance_matrix, C47_dict_violated) and for a list of standard deviations (C47_list_violated). scipy's Lyapunov solver is assumed to return a solution of its equation. |
| C48 | First-order conditions account for every lag of a control | DeepFoc | C07/C08 composed with C14 | **partial**. holds for blocks without deep indices; false with a second lag of a control (witness: the b**2*x[2] term is missing) |
| C49 | Block definitions are eliminated at every date | BlockValidate, Solve | substitution at the written date, evaluation | **partial**. written date only; other dates survive (witness) |
| C50 | Simplifying block equations keeps the model's solutions | SimplifyBlock | solver oracle with contract; solution sets | **partial**. holds when the solver returns a same-date variable or constant; log utility and offset dates are refuted |
| C51 | Conversion to sympy keeps the value of every expression | ToBlock | evaluation commutes with conversion, induction | **proved**. every expression; the two converters in the repository give zero-forms of opposite sign (both proved) |
| C52 | The model's variables and shocks are those of its blocks | Closure, Closure2, Primitives | collectors over blocks | **partial**. Merging proved exact; closure of the equations under variables+shocks proved for models without definitions (C52_closed_partial) and for models whose blocks use their definitions at the date they are written (C52_closed_defs_partial, hypothesis DefsNow). Without that the claim is false in the code: a definition used at another date survives in the equations (C49). |
| C53 | Every block contributes its equations exactly once | BlockValidate, Primitives | fold over blocks | **partial**. Proved for blocks with distinct names; violated for equal names and for a steady-state block named STEADY. |
| C54 | Steady-state values are the ones the user wrote | BlockValidate, Primitives | substitution of steady-state definitions | **partial**. Values proved for the first steady-state block; later ones are ignored (C54_first_block_only). Full substitution: C15_resolved_partial. |
| C55 | Shocks are linked to the priors of the parameters they use | BlockValidate, Primitives | fold over blocks, link table | **partial**. Linked for priors of the same or an earlier block; violated for later blocks. |
| C56 | tryreduce names select exactly the named variables | Primitives | iff over names | **proved**. Exact, for distinct base names. |
| C57 | Parameters of a run are consistent in every period | PerfectForesight | parameter function values per period | **partial**. Model.parameters fully specified; the per-period consistency holds when all compiled parameters are free and fails for deterministic ones (C57_stale_violated). |
| C58 | Boundary conditions are the user's, else the steady state | PFSolve, PerfectForesight | case analysis over the given keys | **partial**. The vector is the user's value or the steady state's (C58_boundary); fails when x0 is a dictionary of Python integers: the user's float conditions are truncated (C58_integer_violated). C58_types_partial says when the types do not matter. |
| C59 | The piecewise initial guess moves monotonically between the two steady states | PerfectForesight | sigmoid weights in exact arithmetic; monotone | **proved**.  |
| C60 | Levenberg-Marquardt keeps its damping in bounds and strictly lowers the merit | SparseRoot2 | damping update; invariant over iterations | **proved**. Exact real arithmetic; solver exceptions are none. |
| C61 | Cycle reduction: what is returned solves the quadratic matrix equation, and failures are reported | LinearSolve | error recursion of cycle reduction; induction over passes | **partial**. distance to any true solution by induction over the passes, exactness when A2 vanishes, report and kernel agreement; violated: success is reported when passes run out with A2 not converged (C61_success_violated), the A2 message is unreachable, and a failure raises from numpy instead of being reported (C61_failure_violated). The scan version with its jitter: exact error recurrence (C61_scan_jitter), and C61_scan_jitter_violated: with C=0 it returns a matrix that solves the system with B+jI, never the model's. |
| C62 | Adjoint gradients of the policy function | LinearSolve | derivative of the implicit equation along differentiable curves; adjoint identities | **proved**. exact with the jitter term made explicit, for every differentiable curve of solutions; existence of the adjoints characterised |
| C63 | Pre-computed matrices are used exactly when the caller supplies all of them | Statistics | decision table | **partial**. Holds for T, R; for the Jacobians it fails with verbose=False (C63_linearize_violated). |
| C64 | Matrix tables carry the right row and column names | Statistics | labels by dimension | **partial**. Holds when the numbers of variables and shocks differ; violated when they are equal (C64_equal_sizes_violated). |
| C65 | A supplied steady state is accepted only if it satisfies every equation | Statistics | iff over residuals | **partial**. Holds for real residuals; NaN residuals are accepted (C65_nan_violated). |
| C66 | Which variables stay in levels | Perturbation | flag lists, position vs name | **partial**. Flags proved when the steady-state dictionary lists variables then calibrated parameters in order (C66_flags, C66_selected, C66_unknown). The full property fails for a steady state given in another order: values are matched by position (C66_position_partial). |
| C67 | A block is accepted exactly when it is well formed | BlockValidate | iff against a separate specification WellFormedBlock | **proved**. Iff-characterisation of Block._validate_initialization against an independent specification (WellFormedBlock), the documented exceptions, and that every constructed block passed it. |
| C68 | A gensys solution solves the linearised model, is stable and is the only stable one | GensysSolution | QZ and SVD as contracts (SortedQZ, ThinSVD); matrix algebra, uniqueness over stable paths | **proved**. LAPACK (ordered QZ, SVD) enters through contracts in exact arithmetic (SortedQZ, ThinSVD); every discarded singular value and every column of C within tolerance is assumed exactly zero. C68_solution, C68_unique, C68_real, C68_wrappers cover the claim for all systems meeting them; concrete rational instance in GensysExample.lean. Finding: with coincident zeros GensysWrapper.perform raises an unpacking error while the numba wrapper returns zeros and False. |
| C69 | gensys return codes mean what they say | GensysSolution | return codes iff algebraic conditions on the transformed system | **proved**. C69_existence, C69_uniqueness, C69_solved_iff, C69_coincident, C69_count, C69_messages. Finding: 'unique but does not exist' (codes 0, 1) is reported as 'Unknown return code' (C69_messages). |
| C70 | The steady-state system is the model on constant paths with zero shocks | SteadyState | evaluation on constant paths, C13 | **proved**. system_to_steady_state, via C13; simplify is an oracle that keeps values. |
| C71 | Steady-state error functions vanish exactly at a steady state | SteadyState | sum of squares over the reals, gradient and Hessian | **proved**. Over the reals; pytensor graph evaluation is not modelled. |
| C72 | Known steady-state values are substituted without changing the remaining system | SteadyState | sequential substitution, solution sets | **partial**. Simultaneous substitution (graph_replace). Violations: equations without unknowns are dropped even when false (C72_dropped_violated); a given value mentioning another known variable brings it back (C72_remains_violated). |
| C73 | Known steady-state values are returned under the right names | SteadyState | names and order of outputs | **partial**. return_symbolic=True zips all variables with the outputs: right only when all values are known (C73_symbolic_partial), mislabelled otherwise (C73_symbolic_violated). |
| C74 | Auxiliary steady-state quantities are substituted out | SteadyState | via C15 | **proved**. Via C15 (flatten_substitution_dict). Auxiliary definitions that mention themselves are excluded in C74_auxiliaries_gone (cf. C15_self_reference_violated). |
| C75 | Shock hyper-parameters are split off without loss | Build | partition of the parameter dictionary | **proved**. Fully proved; the consequence that a hyper-parameter used in an equation is reported as an orphan is C41_hyper_in_equation_violated. |
| C76 | Priors are divided between parameters and shocks without loss | Build | partition of priors | **partial**. The split itself is proved. The last clause fails when the parameter is declared in a later block than the shock (C76_later_block_violated). |
| C77 | Deterministic parameters are resolved and dropped only when unused | Build | resolution order and use | **partial**. Use is looked for in equations and steady-state relations only: a deterministic parameter used only by a calibrating equation is dropped and then undefined (C77_calibration_violated). |
| C78 | A built model is complete and consistent | Build | whole build pipeline as Except program; closedness invariant | **partial**. Closedness is partial because definitions may mention undefined parameters (C41_orphan_violated); solutions are kept when pinned variables have unique constant values (C27). |
| C79 | Steady-state bounds are respected and reparametrisation keeps the system | SSDriver | transforms as bijections of intervals; equivalence of systems | **partial**. User bounds and assumed bounds are respected by every point reported through a transform (C79_user_bound, C79_assumed_bound), the transforms are bijections (C79_bijective) and the transformed system is equivalent (C79_same_system). Violated for unit_interval variables (upper bound ignored), bounds keyed by the plain variable name (ignored), one-sided bounds (replace the declared positivity), default start outside the bounds (NaN). |
| C80 | Model.get finds every object by name, and only that | SSDriver | lookup by name, iff | **proved**. Names of the model distinct (C78). The message for names without any close match is an IndexError of an empty list (C80_unknown). |
| C81 | Names in fixed_values are validated | SSDriver | acceptance iff | **proved**. Complete characterisation of acceptance and of both errors. |
| C82 | Steady-state results are complete and keep given values | SSDriver2, SSDriver3 | driver as Except program with oracle solvers | **partial**. Values kept and complete: C82_fixed_kept, C82_analytic_kept, C82_every_variable, C82_solved, C82_linear. Calibrated parameters are present whenever a solver or fixed values are involved (C82_calibrated_partial); with a fully analytic steady state the call raises (C82_calibrated_violated). Linear models ignore fixed values (C82_linear_fixed_violated). Solvers and graph evaluation are arbitrary functions. |
| C83 | A steady state reported as success solves the model | Details, SSDriver3 | success flag vs residuals | **partial**. Exact characterisation when everything is known (C83_known). Otherwise success means: the optimizer said so, or the equations still having unknowns hold (C83_success_partial). Violated: the optimizer's verdict is not checked (C83_optimizer_violated) and equations without unknowns are dropped unchecked (C83_dropped_violated). |
| C84 | Inconsistent fixed values are refused | SSDriver3 | check of fixed values | **partial**. Equations determined by the fixed values alone are checked (C84_checked) and reported exactly (C84_reported); equations determined by fixed together with known values are not (C84_override_violated). NaN residuals pass. |
| C85 | Packing the unknowns into a vector keeps their meaning | SSDriver3 | pack/unpack as inverse index maps | **proved**. Evaluation is an arbitrary function that depends on the inputs of the expression only. |
| C86 | Solvability check labels each draw with its first failing stage | Solvability, Solvability2 | per-draw pipeline; label = first failing stage, iff | **partial**. Labels, norms and parameters proved for every draw and every stage outcome with one core. With several cores the table pairs results and draws wrongly (C86_parallel_violated), NaN norms count as success, BK exceptions escape, an unknown solver is reported as perturbation, keyword column names are lost: findings. |
| C87 | Samplers stay within bounds and are reproducible | Sampling, Solvability2 | samplers over abstract engines; bounds and determinism | **partial**. Engines are arbitrary functions. Proved for all bounds, priors, sizes and engines; a Generator seed is dropped by all methods but random, the HDI fallback covers less than asked and is reversed for p <= 1/2 (violated parts). |
| C88 | Residual norms measure whether the solution solves the model | ResidualNorms | norms as sums of squares of matrix residuals | **partial**. Exact meaning of the norms proved; they do not look at columns the solution ignores and truncate small entries first (violated parts). C88_solves gives the full claim under the stated conditions. |
| C89 | solve_model returns a solution of the linearised model or fails as requested | SolveModel | solve_model as Except program; links C36, C61, C68 | **partial**. LAPACK enters as an oracle with its specification. on_failure=ignore raises for a failed cycle reduction, the solver name is ignored for backward-looking models and the steady-state success flag is ignored (violated parts). |
| C90 | Caches do not change results | Cache | memo tables as state; every history of calls returns what a fresh call returns | **proved**. Graph construction and compilation are arbitrary functions of their inputs; in-place modification of cached graphs by compile is not modelled. |
| C91 | The policy matrices given to the Kalman filter solve the model in the user's variable order | StateSpace3 | permutation matrices; residual and potentials | **partial**. Reordering, residual and potentials proved for all orders. The diagnostic norms are correct when the solver's order is the user's and T loads on the masked variables only (C91_norms_partial); violated otherwise (C91_norms_violated), a finding. |
| C92 | Temporally aggregated observations are the aggregate of the model's variables | ObsEq, StateSpace | selection matrices; induction over dates along every trajectory | **proved**. Proved for every accepted configuration along every trajectory. |
| C93 | Observation equations enter with their first-order approximation, lags included | ObsEq, StateSpace | HasDerivAt of observation equations; lag chains by induction | **proved**. Chain rule and lag chains proved for all equations. Steady-state symbols are not checked against the model (C93_unknown_steady_state_accepted), a finding. |
| C94 | Measurement error belongs to the series it was declared for | Configure, Details | diagonal placement, iff prefix | **partial**. The covariance is the declared one exactly when measurement_error is a prefix of observed_states (C94_prefix_iff_partial); otherwise variances land on other series (C94_violated), a finding. |
| C95 | configure accepts exactly the documented arguments and stores them | Configure, Details | acceptance iff; state after histories | **partial**. Acceptance characterised exactly; history independence holds for calls that observe variables or equations (C95_reconfigure) and is violated for names of auxiliary states of the earlier configuration (C95_history_violated). |
| C96 | Low-frequency data are placed at the right high-frequency dates | StateSpace3 | calendar arithmetic; exact table | **partial**. Soundness for all inputs; exact table for aligned calendars; rows are lost with gaps and misplaced for period-end dates (two _violated theorems). |
| C97 | Posterior autocorrelations are the model's autocorrelations | StateSpace3 | autocovariance recursion | **partial**. Proved for lag_step >= 1; lag_step=0 is not refused and acts as 1 (C97_zero_step_partial). |
| C98 | Differentiable eigenvalues and the symbolic Blanchard-Kahn check | BKSymbolic, BKSymbolic2, BKSymbolic3, RealEig | perturbation of eigenvalues: HasDerivAt, continuity of roots, counting | **partial**. Values, gradient, symbolic eigenvalues, their meaning as growth factors and correctness of the count for all sufficiently small eps are proved. Two parts are refuted: with the fixed eps = 1e-8 the count can be wrong for eigenvalues within about 1e-8 of the unit circle (C98_fixed_eps_violated), and eigenvalue_sensitivity differentiates at a fixed steady state (C98_sensitivity_violated). LAPACK's eig enters as a contract (EigOracle), shown satisfiable for every real matrix. |
| C99 | block assembles nested lists of arrays like a partitioned matrix | BlockFn | arrays with shapes; induction over nesting | **proved**. pytensor primitives (concatenate, atleast_Nd) are modelled by their definitions on real arrays. |
| C100 | Graph rewrites on joined matrices preserve values | Tensor, Tensor2 | graphs with values; rewrite at any place preserves evaluation | **partial**. Transpose and split rewrites are proved to preserve the value at any place of any graph. The block-diagonal rewrite is proved under the hypothesis that blocks standing in the same grid column have the same width (C100_block_diag_partial); the code does not check this and C100_block_diag_violated shows a valid 2x3 graph turned into a 2x4 one. Static type information is assumed sound (Static.Sound). |
| C101 | Exported Dynare expressions mean the same | Dynare3, DynareNames, DynareSteady | Dynare token printer and an independent Dynare expression grammar; same value by induction | **proved**. sympy's canonical form enters as a hypothesis (no reciprocal of a reciprocal, fraction or one-factor product); the order of terms and factors is sympy's and arbitrary here. The text is modelled on tokens. |
| C102 | Declarations of the exported Dynare file | DynareFile | line breaking of declarations; induction over names | **partial**. Proved for non-empty lists whose names fit on a line; violated for empty lists and for a first name that does not fit (a bare keyword statement is written). |
| C103 | Model block of the exported Dynare file | DynareBlocks | model block; residual equality | **partial**. Residuals proved equal for both branches. Closedness proved when equations and closed forms use free parameters only; violated for deterministic/calibrated parameters and for closed forms mentioning other steady-state values. |
| C104 | Steady state block of the exported Dynare file | DynareSteady | steady-state block; sp.cse contract | **partial**. Analytic branch proved relative to sp.cse's contract; initval values are rounded to 3 decimals; violated (AttributeError) with calibrated parameters. |
| C105 | Numbers in the exported Dynare file | DynareFile | decimal rounding | **partial**. Values are rounded to three decimals (violated for small values), shock standard deviations are always 0.01 (violated). |
| C106 | Reading GCN text: tokens, layout and comments | Lexer | maximal-munch lexer; inductive spelling relation, existence and uniqueness | **proved**. Model: Model/Lexer.lean; spec: Model/GcnSpec.lean. ASCII letters and digits; which error a rejected text gets is not modelled. |
| C107 | The grammar of GCN files | Grammar, GrammarExpr | recursive descent with fuel vs inductive grammar; both directions for all texts | **partial**. Model: Model/Grammar.lean (recursive descent with fuel; acceptance = some fuel suffices); spec: Model/GrammarSpec.lean (inductive grammar). C107_grammar/parse are equivalences, both directions for all texts. C107_prior_prefix_violated: `delta = Beta_bar / 2;` in calibration is rejected (pp.one_of without word boundary). Simplified: layout between a sign and its digits and numbers like .5e3 accepted in priors; words of an option key joined by one space; error messages not modelled. |
| C108 | Printed model text can be parsed again, character by character | PrintFile | printer at character level; printed text spells printed tokens, then C107 | **partial**. Holds for printable models without tryreduce (C108_print_parse_partial; Printable is a decidable-in-spirit list of naming and number conditions in Model/PrintSpec.lean, satisfied by every model parse_gcn returns except for expressions outside Expr.Stable and calibration names prefixed by a distribution). For models with a tryreduce list the claim is false: C108_tryreduce_violated. |
| C109 | Parse failures keep their code, text and suggestions | ErrorText | string encoding with separators; split/join inverse | **partial**. Proved for texts without the character '\|' (and suggestions without ','). Fails when the offending text contains the separator (C109_separator_violated), for every semantic error moved (TypeError) and a moved grammar error forgets expected/found (C109_moved_violated). Which position pyparsing reports is not modelled. |
| C110 | Errors are located where they are | ErrorText | positions in character lists; induction over the text | **partial**. Proved for every tab-free text and position; line and source line for every text. Fails: columns behind tabs (C110_tab_violated), end column of variables with a date other than [] (C110_variable_violated). '\r', '\f' and other breaks splitlines knows are not modelled. |
| C111 | The formatted report shows the right lines, with carets under the error | ErrorText | rows of the report; list algebra | **partial**. Context lines and order proved for every error and source; alignment of the carets up to line 9999 and proved to fail from line 10000 on (C111_aligned_violated). Colours off. |
| C112 | From the text of a file to its solutions | Pipeline, Stationary, StationaryDefs | composition of the grammar (C107), conversion (C20, C51), expansion (C09) and solution (C23, C14) theorems: written equations hold iff the plain equations vanish; first-order conditions are derivatives of the discounted Lagrangian of the text; problems with definitions by showing that the substituted Lagrangian contains no defined name at any date and constructing the variation from the flattened definitions. | **partial**. C112_written: all files whose model blocks have distinct names and whose definitions are dated t-1..t+1, along paths on which the definitions hold. C112_complete: additionally no controls and no variable named like an auxiliary y__lagK / y__leadK. C112_solutions / C112_solutions_defs: files whose blocks are plain, Bellman or one-period problems (controls dated t or t-1; with or without definitions, defined variables moving with the controls), variables dated t-1..t+1: solutions of the loaded model are exactly the paths where the written equations hold and the problems are stationary. C112_stationary / C112_stationary_defs: also the infinite horizon. simplify_blocks=True is C125. Missing: objectives that are neither V[] = u + beta*E[][V[1]] nor about one period, definitions that use other definitions at other dates, deeper dates, functions outside their domains. |
| C113 | Panels of a figure fill their grid without overlap | Plotting | Model/Plotting.prepareGrid, irfGrid; closed form of the list of places, division with remainder. | **partial**. C113_layout, _disjoint, _centred and _ticks prove the layout for all sizes; C113_empty_violated shows the failure for no panels. |
| C114 | A figure shows what was asked for, and refuses unknown names | Details, Plotting | Model/Plotting.plotIrf, plotSimulation, plotPriors, plotCorner, kalmanGroup; exact characterisation by induction on scenarios and panels, concrete counterexamples. | **partial**. C114_irf is an exact characterisation of plot_irf; the _partial and _violated theorems state where the other figures show something else than asked for. |
| C115 | Eigenvalue figures show exactly the eigenvalues in range, inside the axes, with first-order arrows | Plotting | Model/Plotting.plotEigenvalues, filterEigenvalues, axisLimits, arrows over the reals with infinity and NaN; list induction and linear arithmetic. | **partial**. C115_filter, _drawn, _limits, _arrows hold for all inputs; C115_count_partial / C115_count_violated: modulus ten and NaN are neither drawn nor counted. |
| C116 | Solvability figures account for every draw once | Plotting | Model/Plotting.plotSummary, offDiagonal, diagonal; counting. | **proved**. C116_summary, C116_scatter, C116_density; the labels are those of the solvability check (FailStep). |
| C117 | The state-space system is a function of the free parameters and equals the linearisation | StateSpaceBuild | Model of statespace_from_gcn with simultaneous graph replacement; entries evaluated through replace_at, derivatives from C39. | **partial**. Matrices, acceptance and steady state proved for closed models (ClosedModel). Violated when a declared value mentions another variable found by propagation: it stays in the matrices (C117_analytic_violated). rewrite_pregrad and pytensor compilation not modelled. |
| C118 | Roots are classified consistently and the reduced SVD keeps what matters | GensysParts | Loop modelled as a fold over pairs; invariants on the cutoff; SVD as an argument with LAPACK's contract. | **partial**. Exact arithmetic. Violated: roots closer to 1 than realsmall are counted depending on their order (C118_order_violated). Finding: the flag looks at the last pair only (as documented), unlike gensys itself (C118_flag_last_only). |
| C119 | Forward- and backward-looking variables are those the equations say | ForwardVars | List filters over equations and over the columns of the matrices of C39. | **proved**. The caches on the Model object are not modelled (equations and default parameters do not change). |
| C120 | What the calibration, the shocks and the priors of a GCN file say reaches the loaded model | FileCalibration, ParseDists | lexer + grammar + loader + block construction composed (as for C112), with `Sets`/`Calibrates`/`Starts` stated on the parsed file; each model dictionary is shown to be exactly the stated entries by following built_dicts; distributions by the C55 model of the loader plus a model of to_distribution.py with PreliZ as an uninterpreted predicate. | **partial**. Proved for every GCN text: free parameters, deterministic parameters, calibrating equations, shocks, tryreduce list, what PreliZ is asked to build for each prior (PreliZ itself is an uninterpreted predicate saying which calls succeed), and Normal shocks with named arguments. Violated by the code: a shock distribution with numbers only, or not Normal, is dropped without a message (C120_shock_dists_violated). |
| C121 | The compiled perfect-foresight period function is the model's equations, and its Jacobian their derivatives | PFCompile | compile.py modelled with a node per pytensor input; substitution of steady-state values by eval_subsSeq, slot lookup shown sound so the compiled environment agrees with the period's valuation; derivative by the chain rule on SExpr.diff; composed with C29/C30 for the stacked system. | **partial**. Proved for shocks dated in the current period, at points where the equations are smooth: residual, Jacobian, stacked path and stacked Jacobian, exact success condition, names, and the list in the error. Violated by the code: calibrated parameters in equations make compilation fail (C121_calibrated_violated); a lagged shock is read as a current one (C121_lagged_shock_violated). |
| C122 | Artificial data from the prior belong to the parameters returned with them | DataFromPrior | data_from_prior over oracles for the generator, the prior draws and the simulated trajectories with their laws as hypotheses (Model/DataFromPrior.lean); counting missing values by induction over columns and rows. | **partial**. Proved: parameters and data are of the same draw, columns, rows and number of missing values, when the call is accepted, what is left behind, which checks are in the sampled model. Violated: the default keyword arguments are discarded and could not be passed on (C122_defaults_violated); nothing is modified in place although the documentation says so (C122_in_place_violated); fractions outside [0, 1] are not always refused (C122_range_violated). |
| C123 | The functions handed to the steady-state solvers are the equations, their error and its true derivatives | SSGraphs | Model/SSGraphs.lean: pytensor scalar graphs (`TG`) with values and pytensor's gradient rules, error graphs, Jacobian stacking, connectivity errors, packing, and the keyword handling up to the scipy calls; proved in Props/SSGraphs.lean by a chain rule for graphs along curves (HasDerivAt, Mathlib), symmetry of second derivatives of graphs, and the backward transforms of C85. | **partial**. Proved for the residual, error, Jacobian, gradient, Hessian and Hessian-vector product, for the refusals and for start, method, tolerance, budget and bounds. Violated by the code (proved): use_jac=False still passes the gradient unless use_hessp=False too; the documented default method trust-krylov is really trust-ncg; maxfev/maxiter given inside options is overwritten by 5000; the l2-norm gradient is NaN at an exact steady state; the gradient judged after root without use_jac is identically zero. Not modelled: jitter of the start, further keywords that are passed through, floating point. |
| C124 | The report after building a model says what was built | Report | build_report as the list of the pieces of text it appends (Model/Report.lean), from the outcome of compileGcn; lines specified by HasLine, wrapping by WrapsWell, by induction over the names. | **partial**. Proved for the counts, the eliminated names, the steady-state values, the wrapping of names and the warning. Violated (C124_priors_violated): the number of parameters with priors is the number of priors, so a prior on a name that is no parameter gives '1 / 0 has a defined prior'. |
| C125 | The model loaded by default has the solutions of the model as written | LoadSimplified | Model/LoadSimplified.lean repeats block conversion and loading with `try_simplify=True`, recording the solutions used; induction over the elimination loop and over the blocks relates it to the unsimplified loader (C53) and, through C112, to the text. | **partial**. Proved for eliminations of the announced kind (multiplier replaced by a variable of the same date or a constant), generated multipliers at dates t-1..t+1 and in one block only. Without the first condition the claim is false of the code: C50_log_utility_violated and C50_offset_violated exhibit eliminations that change the solutions. sympy's solver, evaluation and set order are oracles constrained by SimpOps.Lawful. |
| C126 | Errors found while a block is checked point at the declaration they are about | ValidationText | Model/ValidationText.lean: the text of GCNValidationError as built from source, place, annotation and note, the location tables of block conversion, and the three errors raised by block checks; alignment by relating str.splitlines to splitting at newlines and by induction over the rows. | **partial**. The whole text is proved (message, arrow, rows, caret row, note; plain message without source or with a place outside it), and that carets lie exactly under the offending name for texts without tabs before it and with only newline breaks. C126_tab_violated and C126_break_violated prove the claim false behind tabs and after other line breaks that str.splitlines honours (form feed, carriage return...). Which place is recorded (C126_place) and that the three loading errors carry it (C126_errors) are proved. Dates other than X[] in calibrating equations are C110. |
| C127 | Parsed blocks converted directly keep all their equations, parameters and variables | DirectConvert | Model/DirectConvert.lean on top of Model/ToSympy.lean; list induction over components, blocks and calibration statements (last assignment wins), values through C51. | **partial**. Equations, blocks, metadata, calibration dictionaries and shocks are proved in full. Models: proved for distinct block names; C127_model_violated: of two blocks of the same name only the last is left. Variables: proved to be exactly the controls and the variables alone on a left-hand side; C127_variables_violated: variables occurring only inside expressions are missing. C127_arrow_violated: a converted calibrating equation, read as an equation, is not the condition written (it equates the parameter with the residual). Not modelled: equations sympy evaluates to booleans, the text of left-hand sides that are no symbol. |
| C128 | The autocorrelation figure shows each model's autocorrelations of each variable at their lags | FigAcf | Model/FigAcf.lean: the figure as the list of panels with drawn points; list lemmas relating panels to models and variables. | **partial**. Proved for models with the same lags and name of the variable dimension (C128_figure_partial), with offsets that keep points apart (C128_apart), the legend and the refusals. C128_lags_violated: models with other lags are drawn at the first model's lags. C128_dims_violated: models with differently named dimensions cannot be drawn together. C128_cols_violated: n_cols=None raises TypeError. C128_reference_violated: the legend announces data no panel shows. Not modelled: how the intervals (HDI) are computed, line styles, sizes. |
| C129 | Heat maps, matrices, pair plots, time series and sensitivity figures show the right number in the right place | Figures | Model/Figures.lean: each figure as the list of what is drawn; list induction, order arguments for colour thresholds and variances, C113 (grid), C114 (impulse responses) and C115 (arrows). | **partial**. Covariance heat maps, estimated matrices, pair plots, time series and shock legends are proved in full; which parameters count as varying is proved for draws apart by more than the threshold. Violated: C129_heatmap_violated (a non-square table is refused: numbers of ticks exchanged), C129_parameters_violated (parameters varying only below 1e-9 are taken for constant), C129_success_violated (a parameter called success is never shown), C129_sensitivity_violated (precomputed sensitivities at other values), C129_scenario_legend_violated (empty first scenario name: no legend). Not modelled: densities, colours, number formats, explicit thresholds of annotate_heatmap. |
| C130 | Printed impulse responses satisfy the equations of the file to first order | Responses | chain rule over the symbols of each equation at the steady state, matched with the Jacobian entries of the linearisation; C89 and C37 for the table; C112's block lemmas, with values instead of zeros, for the text | **proved**. C130_first_order: the matrices of linearize_model are the derivative of the equations along any scaled deviation; C130_residual: for any solver; C130_irf: loaded equations for exact solvers; C130_written: equations as written in the file; C130_paths_exist: such paths exist. Hypotheses: variables have different names and are not shocks, equations smooth and zero at the steady state, no lead hidden by the gensys tolerance, and C = 0 when the model is declared backward looking; for dates deeper than one period the auxiliary variables of the path must be what they stand for (ShiftsHold). Example: a one-equation nonlinear file, from text to responses. |
| C131 | Number conversions, sorting and pickling keep a SymbolDictionary's content | ContainerValues | Model the two value loops through `__setitem__` on a copy that still shares its metadata, `sort_keys`, `__reduce__`/`_unpickle_symbol_dictionary` and the subclass; prove the loop converts the processed prefix and leaves the heap alone; sorting through the string round trip of C03. | **partial**. Value conversions and pickling hold in full. Sorting symbols holds for dates t-1, t, t+1 and ss; deeper dates become parameters (C131_sort_deep_violated). copy() and to_string() of a SteadyStateResults lose the class and the success flag (C131_success_lost_violated). float(sp.Float(x)) = x is a hypothesis of the round trip; sorting symbols in place is not stated. |
| C132 | A perfect-foresight run solves the file's equations between the promised boundaries | PFJacobian, PFSolve | solvePF composes the compiled problem, boundary, shock and parameter matrices, stacked system and root finder; InPeriod/OnPath/GuessValue are the specification; proved by composing C30, C35, C57, C58, C121 and the text bridge | **proved**. Whole run, composed from C30, C35, C57, C58, C121 and the reading of the file: residual rows of the equations as written (C132_residuals, C132_written), the verdict (C132_verdict), descent with the default solver (C132_default_improves), solved guesses (C132_solved_guess), the reported matrix is the matrix of derivatives up to the first-period sparsity pattern (C132_jacobian), guesses of the wrong shape are refused (C132_guess_shape). Exact reals; for dates deeper than one period the auxiliary variables of the path must be what they stand for (ShiftsHold). The steady state is a function of the parameters (C71, C83). |
| C133 | A reported steady state is a point where the file's equations hold, as written, at every date | SteadyWritten | Composition of the text-level bridge (C107, C129: the loaded equations have the values of the written ones), C70 (steady-state conversion = constant path with zero shocks) and C83 (meaning of the success flag); specification: AtRest, Carries, Gcn.writtenGap. Example: a GCN text read, its steady state 4 reported with success. | **partial**. C133_equations (the steady-state system is the file's equations at rest, as written) and C133_known (all variables known or fixed: success implies every written equation holds at every date up to 1e-8) are complete; C133_written_partial has the two loopholes of C83 (the optimizer's own verdict is believed, equations without unknowns are dropped), both shown real by C83_optimizer_violated and C83_dropped_violated. For dates deeper than one period the auxiliary variables rest with the variables they stand for (ShiftsHold). |
| C134 | A solver object answers alike however it was used before | SolverReuse | Model/SolverReuse.lean: solver objects with their changing fields (direction memory, merit_fun slot, history, radius), calls of sparse_root and solve_perfect_foresight in any order and size; the resets make the answers independent of the state, except of the stored merit function | **partial**. Trust-region and damping solvers: proved for every history. Armijo line searches: every solve_perfect_foresight call, and sparse_root calls before the object has been passed to solve_perfect_foresight. C134_stale_violated: solve_perfect_foresight leaves its merit function in the passed object, so later sparse_root calls fail or raise. C134_history_violated: the non-monotone line search keeps the merits of earlier calls and accepts steps a new object refuses. |
| C135 | An exported Dynare model block has the equations of the GCN file | DynareWritten | Composition of the text-level loader theorems (C107/C112) with the Dynare printing and reading theorems (C103): line i of the block is worth minus the written gap at every date; quantified over all files, views and paths. | **proved**. text -> lexer/grammar model -> loader -> exported block -> Dynare grammar. sympy's canonical form of the loaded equations enters as hypothesis SameOn (same values at every date); steady state references either all in closed form or numbers (the mixed/undeclared cases are the C103 *_violated theorems). |
| C136 | The estimated state space follows the equations of the file to first order | StateSpaceWritten | New glue model (matrices at a draw, solver call, return to the user's order); the drawn matrices are shown to be those of linearize_model with rows and columns permuted, the exactness of R and a Cauchy-Schwarz bound on the residual give the rate. | **partial**. Composition of C117, C91/C92, C36 and C130 from the file text. The kernels giving T are arbitrary (the bound is in terms of the residual the code itself checks). Violated for backward_direct on a model with leads: nothing refuses it, the residual of T can be zero while R is wrong (C136_backward_violated). |
| C137 | The Blanchard–Kahn check counts the roots of the model's characteristic equation | BKRoots | charPoly is det(A + zB + z²C) in ℂ[X]; the model's pencil has that determinant up to sign (Schur complement over the lead block), and a triangular decomposition makes its roots the ratios of the diagonals, so the counted eigenvalues are the roots with multiplicity; C130 turns a root into growing deviations of the written equations; 0 = 0 is the counterexample | **partial**. C137_root, C137_count, C137_verdict, C137_solved and, down to the file, C137_equations, C137_written. C137_singular_violated: the model 0 = 0, for which every number is a root, is reported as satisfying the condition (0/0 is not counted as unstable). Exact reals; roots within the tolerance of the unit circle are excluded (Separated); leads above the tolerance (CleanLeads). |
| C138 | The gensys solution is the model's only stable rational-expectations equilibrium, and the reported moments are its moments | RationalExpectations | modelSolveGensys, solveModel, stationaryCov, autocovarianceMatrix as before; new specification: covariance form, conditional expectations as self-adjoint projections, innovations, equilibrium. Forward: the expected path from each date is a vanishing path (C68/Gen.unique_iff), then B + C T is injective; backward: substitution and T^t -> 0. Moments by the gap T^t (V0 - S) T'^t. | **proved**. C138_equilibrium: the iff for gensys' T and R; C138_solve_model: through solve_model; C138_moments: stationary covariance (uniqueness, limit, stationarity) and autocovariances. Random variables are elements of a real vector space with a symmetric covariance form whose null vectors are zero (second-order theory); conditional expectations are self-adjoint projections with the tower property. gensys' exactness assumptions (exact QZ and SVD, CleanLeads) as in C68; the Lyapunov solver is assumed exact (LyapSpec, as in C47). Example: a one-variable model with a lead, i.i.d. unit shocks, variance 9/7. |
| C139 | The Blanchard-Kahn report: complete, sorted, and independent of how the model is written down | BKReport | New Model/BKReport.lean (computeBK with an arbitrary sort, checkBKCondition, bkMessage, summarize). The table by the sort's specification and the size of the decomposition; independence of order by C137 (the count is that of the characteristic polynomial, which changes sign at most when rows and columns are permuted). | **proved**. C139_table, C139_sorting, C139_reordered (matrices), C139_writing_order (variable and equation lists through linearize_model), C139_message, C139_summary. QZ exact; the reordering theorems assume the roots are separated from the unit circle by the tolerance, CleanLeads and a nonzero characteristic polynomial (as C137). NumPy's argsort is any order sorted by modulus (no NaN). Example: a two-variable model and its swapped version. |
| C140 | Results belong to names, not positions | WritingOrder | Perturbation/Gensys/LinearSolve models; the permuted model's matrices are row/column permutations (jacobian entries depend on the shock list by membership only); gensys via uniqueness of the vanishing path, cycle reduction by equivariance of every pass and of the 1-norm, covariance by uniqueness of the Lyapunov solution, responses from the closed form. | **proved**. C140_solution: gensys, entries of T and R by name. C140_solvable: gensys solves one exactly when it solves the other (no coincident zeros reported for either). C140_other_solvers: cycle reduction and the backward solver, including failures. C140_covariance, C140_irf: the reported numbers by name. Exact arithmetic; forward columns below the tolerance are zero (CleanLeads). |
| C141 | Log-linearisation changes units only | Units | Perturbation/Gensys/LinearSolve models; the rescaled model's matrices are P·M·S with P, S diagonal and invertible, so vanishing paths correspond and uniqueness of the gensys solution transfers; covariance by uniqueness of the Lyapunov solution, responses from the closed form. | **proved**. C141_solution: gensys, T and R in units of levels. C141_solvable (also for C142): gensys solves one exactly when it solves the other, when no coincident zeros are reported for either. C141_irf, C141_covariance: the reported numbers. Exact arithmetic; forward columns below the tolerance are zero in both versions (CleanLeads); gensys only: cycle reduction stops on a norm that depends on units. |
| C142 | Equations may be rewritten | Units | Derivatives at the steady state of the rewritten equation are a nonzero multiple of the original's (product rule with the residual zero, chain rule for log), hence a row scaling of the linear system; then as C141. | **proved**. C142_solution: equations with proportional derivatives at the steady state give the same T and R under gensys; C142_multiplied, C142_exchanged, C142_logs: the rewritings promised are of that kind; C142_equivalence: in any combination; solvability is C141_solvable. Exact arithmetic, CleanLeads for both versions. |
| C143 | Reported moments are moments, and impulse responses account for them | Moments | Statistics and Simulate models; S = T S T' + R Q R' from the Lyapunov contract, covAfter = S - T^t S T^t' ≥ 0, Cauchy-Schwarz by the discriminant; responses from the closed form T^t R and the limit of covAfter. | **proved**. C143_covariance, C143_correlations, C143_decay, C143_responses; C143_solved: gensys solutions are stable in the sense used. A covariance matrix given by the user is assumed to be one (the code does not check it). Variables without variance: numpy divides by zero (NaN), real division gives 0. Exact arithmetic. |
| C144 | An economy at rest stays at rest | AtRest | PFSolve model through C132_solved_guess: the steady state at every date is a path of the run (initial, terminal and guess values are the same function of the dictionary); simulation by induction over the draws. | **proved**. C144_perfect_foresight: any solver object, both forms of the default guess; the equations need only hold up to 1e-10 at rest. C144_simulate: all simulated values are zero. Responses to zero shocks: C37_zero. |
| C145 | A syntax error is reported under one documented code | ExpressionErrors, Structural | Model/ErrorCatalog (generated from the file), Model/Structural: the handler, the conversion of an exception and parse_expression's errors as functions of what pyparsing reports; substring tests shown equal to `<:+:`; catalog facts by kernel evaluation over the whole catalog; then case analysis | **partial**. Proved: the catalog answers exactly for its 24 codes, with distinct titles and help texts that list name, title, explanation, causes and fixes (C145_catalog, C145_distinct); the full decision which code an error of pyparsing's own gets (C145_code) and what the report then is (C145_report, C145_annotation); a missing semicolon, an unclosed brace or parenthesis and a component after an unfinished statement are reported as such (C145_semicolon, C145_unclosed, C145_parenthesis, C145_component); codes of parse_expression (C145_expression, C145_expression_code). False of the code: an expected ';' before '(' is reported as unbalanced parentheses; the offending word is quoted twice; parse_expression shows the internal separators and code of the failure in its message, reports a wrong index of a variable named like E008 as an empty call, and never gives its message about a trailing operator. What pyparsing reports for a text is an input. |
| C146 | In a linear model perfect foresight and the linear solution agree | LinearModels | no new code; `LinearModel` states linearity on every path, independent of the compiled form; C132_solved_guess applied to the path of the linear rule, C37 closed form of simulate, C39 entries as derivatives and uniqueness of derivatives | **proved**. C146_rule: any start, a shock in the first period, any T, R solving the two matrix equations; C146_impulse: the same in terms of simulate; C146_backward: C = 0, shocks in every period, any terminal condition; C146_matrices: linearize_model returns A, B, C, D. LinearModel says linear on every path; hypotheses met by x = d + a x[-1] + c x[1] + e. |
| C147 | str() of a parsed model's parts is GCN text, and its queries report what it contains | NodeText | Model/NodeText: the str methods and the collector as structural recursions; the fully parenthesised text is shown to spell tokens that C107's grammar reads (induction on the expression), distinctness from C106/C107 uniqueness; queries by induction on `visited` | **partial**. Fails as documented for two queries: C147_multiplier_violated (str() of an equation with a multiplier is not an equation) and C147_calibration_violated (all_parameters leaves out the calibration). The rest is proved in full. A set is a list without repetition; numbers that are not whole print as any text of that value, str of a float being one. |
| C148 | How a file is laid out does not change the model | Rewrite, RewriteDefault, RewritePriors, RewriteSolution | No new code: RewriteSpec says when two files state the same; token sequences and grammar are unique (C106, C107), the built blocks of permuted files are permuted and the merges are sorted by distinct keys (C19, C52), plain blocks carry exactly their stated equations (C112), and the policy matrices of reordered models are reordered (C140). | **proved**. C148_layout (texts), C148_order (blocks permuted: success, blocks, equations, dictionaries; variables and names to reduce as lists when no two variables share a name), C148_solution, C148_other_solvers (policy matrices by name, from C140: exact arithmetic, and for gensys zero forward columns below the tolerance), C148_equations (solutions, Includes in Model/RewriteSpec), C148_shocks. C148_order asks that calibration statements set parameters (ParametersOnly) and that no two model blocks share a name, C148_equations that definitions are dated near t and model blocks have different names. The order of blocks does matter for a prior used by a shock before it is declared (C55_later_prior_violated), so C148_priors (priors and shock distributions, looked up by name) asks that the priors a shock names stand in its block (PriorsAtHand), and with two steady-state blocks the first counts (C54_first_block_only). C148_default, C148_default_layout C148_default_solution and C148_default_other_solvers are the same about load_gcn_file, for any solver and any order in which sets are iterated; C148_equations is about loading without simplification (C125 says what simplification keeps). |
| C149 | Printing a model and loading the text gives the same model | PrintLoad | No new code: PrintLoadSpec says which files; the printed text parses as the file without tags and shock distributions (C108), and the loader depends on assumptions through the symbols it makes only and on shock distributions not at all (congruence through every function of Loader and LoadSimplified). | **proved**. C149_same (without simplification), C149_default (with it), C149_priors. False of the code without the conditions: C149_tags_violated (@exclude is not printed: one equation more), C149_shock_priors_violated (the printed text never has priors on shocks), C149_tryreduce_violated (never loads). OneExtra is a limit of the model: it compares assumptions as ordered lists, and the printed text may keep another order. Numbers and shapes of expressions: Printable (Model/PrintSpec), as in C108. |
<!-- /table -->

## Trusted base

* **Lean 4.33 kernel.**  No `native_decide`, no `bv_decide`, no own axioms.  `decide +kernel` is used only for
  concrete non-vacuity examples and finite facts (the kernel itself evaluates them).
* **Axioms.**  `tools/axioms.txt` lists, theorem by theorem, the output of `#print axioms`; every theorem depends at
  most on `propext`, `Classical.choice`, `Quot.sound` (Lean/Mathlib's standard ones).
* **The reading of the Python source.**  The model was written from the text of /repo; the code was never run.
  Every definition cites the lines it models and says where it simplifies.
* **Oracles.**  The following are parameters of the model, constrained only by the hypotheses visible in the theorems:
  sympy's `solve`, `simplify`, `diff` (the derivative is modelled and proved correct; the canonical form is not),
  `eliminate`-style rewriting and `cse`; numpy/scipy `qz`/`ordqz`, `svd`, `eig`, `solve`, `solve_discrete_lyapunov`,
  `lstsq`; scipy `root`/`minimize`; preliz `maxent`; random generators; pytensor compilation (a compiled graph is its
  denotation); pandas/xarray containers (labelled lists).
* **Numbers.**  Exact rationals, reals or an arbitrary (linearly ordered) field in place of floats.  Rounding, overflow
  and NaN appear only where the code's decision depends on them (for instance C103, NaN as an extra value).
* **Strings.**  Unicode scalar sequences; `str.isalpha`-style classes are restricted to the ASCII classes pyparsing's
  `alphas`/`alphanums` use.  pyparsing's engine is modelled by its documented semantics (ordered choice, whitespace
  skipping, `infix_notation` as a recursive descent over precedence levels); its packrat cache is not modelled.
* **Not modelled**: drawing (plotting.py), HTML/CSS output, numba/jax dispatch registration, PyMC sampling, downloading
  of data, and the functions named in the last column below.

### Coverage per source file

Generated by `tools/coverage.py` from the citations in the model.

<!-- coverage -->
| file | model modules citing it | functions not modelled (line) |
|---|---|---|
| data.py | — | all |
| dynare_convert.py | Dynare | — |
| exceptions.py | ValidationText | `__init__` (179), `__init__` (193), `__init__` (241), `__init__` (253), `__init__` (263), `__init__` (274), `__init__` (280), `__init__` (288), `__init__` (300), `__init__` (311), `__init__` (321), `__init__` (334), `__init__` (347) |
| plotting.py | FigAcf, Figures, Plotting | `set_matplotlib_style` (28), `_plot_diagonal_hist` (1621), `_plot_offdiag_panel` (1631) |
| utilities.py | Block, Perturbation, SSDriver, Simplification, SteadyState, Sym | `flatten_list` (19), `is_variable` (136), `is_number` (140), `unpack_keys_and_values` (160), `merge_dictionaries` (167) |
| classes/containers.py | ContainerValues, Containers, Loader | `step_forward` (294), `to_ss` (302) |
| classes/distributions.py | — | all |
| classes/time_aware_symbol.py | Perturbation, Time | `__getnewargs_ex__` (97) |
| data/examples.py | — | all |
| model/build.py | Build, Report, Simplification, StateSpaceBuild | `_print_parse_error` (37) |
| model/compile.py | Cache, PFCompile, Perturbation, SSDriver, SSGraphs, StateSpaceBuild, SteadyState | — |
| model/model.py | Cache, ContainerValues, Diagnostics, Dynare, ForwardVars, Gensys, LinearSolve, PerfectForesight, Perturbation, Responses, SSDriver, SSGraphs | `var_order` (719), `inv_var_order` (724), `eq_order` (729), `inv_eq_order` (734) |
| model/parameters.py | PerfectForesight, StateSpaceBuild | — |
| model/perturbation.py | BKReport, Diagnostics, Gensys, Perturbation, RealEig, StateSpaceBuild | `check_perturbation_solution` (383) |
| model/sampling.py | Diagnostics | — |
| model/simplification.py | Simplification | `_check_system_is_square` (15) |
| model/simulate.py | Simulate | — |
| model/statespace.py | DataFromPrior, StateSpace, StateSpaceSolve | `n_forward` (236), `set_coords` (1129), `param_dims` (1133) |
| model/steady_state.py | SSDriver, SSGraphs, SteadyState | — |
| model/timing.py | PFCompile, Simplification | — |
| model/block/basic.py | Block, ClosedForm, LoadSimplified, Loader, SimplifyBlock, ValidationText | `calibrating_equations` (189) |
| model/block/ces.py | ClosedForm | — |
| model/block/cobb_douglas.py | ClosedForm | — |
| model/block/registry.py | ClosedForm | `register_block` (12) |
| model/perfect_foresight/assemble.py | PerfectForesight | — |
| model/perfect_foresight/compile.py | Cache, PFCompile, Perturbation, SSDriver, SSGraphs, StateSpaceBuild, SteadyState | `n_vars` (270), `n_shocks` (274), `n_eq` (278) |
| model/perfect_foresight/solve.py | PFSolve, PerfectForesight, SolverReuse | — |
| model/perfect_foresight/validation.py | PerfectForesight, Statistics, Validate | — |
| model/statistics/covariance.py | Statistics | — |
| model/statistics/formatting.py | ErrorText, Statistics | — |
| model/statistics/perturbation_diagnostics.py | BKReport, Diagnostics | `_init_worker` (48), `_worker_fn` (56) |
| model/statistics/validation.py | PerfectForesight, Statistics, Validate | — |
| parser/error_catalog.py | ErrorCatalog, ErrorText, Structural | `title` (385), `explanation` (390) |
| parser/errors.py | ErrorText, Validate | `__init__` (534), `_format_message` (543), `__len__` (557), `__iter__` (560), `__getitem__` (563), `has_errors` (567), `to_lsp_diagnostics` (571) |
| parser/formatting.py | ErrorText, Statistics | `_format_location` (72), `_format_notes` (112) |
| parser/html.py | — | all |
| parser/loader.py | Build, DirectConvert, LoadSimplified, Loader, Pipeline, ToDistribution | — |
| parser/preprocessor.py | Pipeline, Validate | `__init__` (19), `validation_errors` (33), `has_errors` (40), `sympy_equations` (45), `distributions` (52), `blocks` (59), `options` (64), `tryreduce` (69), `assumptions` (74), `quick_parse` (165) |
| parser/suggestions.py | ParserMisc | `suggest_wrapper` (99), `suggest_block_component` (116), `suggest_special_block` (133), `suggest_assumption` (150) |
| parser/ast/nodes.py | Ast, Grammar, NodeText, Pipeline, PrintText | `__init__` (20), `is_steady_state` (26), `value` (30), `__eq__` (33), `__hash__` (38), `__repr__` (41), `step_backward` (60), `with_tags` (300), `has_tag` (311), `is_excluded` (315), `is_minimize` (319), `is_maximize` (323), `is_calibrating` (327), `has_lagrange_multiplier` (331), `is_wrapped` (378), `collect_parameter_names` (519) |
| parser/ast/printer.py | PrintText, Printer | — |
| parser/ast/validation.py | PerfectForesight, Statistics, Validate | — |
| parser/ast/visitor.py | Ast, ExpandTime, NodeText | `visit` (38) |
| parser/grammar/blocks.py | Grammar, Lexer, Printer | `parse_block_from_text` (52) |
| parser/grammar/components.py | Grammar, Lexer, Printer | — |
| parser/grammar/expressions.py | ErrorText, Lexer, Printer, Structural | `_parse_time_index` (38) |
| parser/grammar/gcn_file.py | ErrorText, Grammar, Lexer, Structural | `_tag_tryreduce` (25), `_tag_assumptions` (29), `_component_outside_block_fail` (42), `parse_gcn` (243), `parse_gcn_file` (252) |
| parser/grammar/special_blocks.py | Grammar, Lexer, Loader, ParserMisc, Printer | `parse_tryreduce` (121), `parse_assumptions` (131), `extract_special_block_content` (141), `remove_special_block` (150) |
| parser/grammar/statements.py | Grammar, Lexer, ParserMisc, Printer | `_missing_rhs_fail` (140), `_missing_equals_fail` (155), `_unmatched_close_fail` (170) |
| parser/transform/expand_time_indices.py | ExpandTime | `__init__` (49) |
| parser/transform/to_block.py | Block, ExpandTime, LoadSimplified, Loader, ToSympy, ValidationText | — |
| parser/transform/to_distribution.py | ToDistribution | — |
| parser/transform/to_sympy.py | DirectConvert, ToSympy | `_convert_expectation` (135), `_convert_equation` (140) |
| pytensorf/block.py | StateSpace, Tensor | — |
| pytensorf/block_rewrites.py | Tensor | — |
| pytensorf/compile.py | Cache, PFCompile, Perturbation, SSDriver, SSGraphs, StateSpaceBuild, SteadyState | `rewrite_pregrad` (11) |
| pytensorf/real.py | — | all |
| pytensorf/real_eig.py | RealEig | `make_node` (23), `jax_funcify_RealEig` (106), `real_eig_jax` (107), `numba_funcify_RealEig` (127), `real_eig_numba` (129) |
| solvers/backward_looking.py | LinearSolve | `solve_backward_shock_matrix_pt` (81) |
| solvers/cycle_reduction.py | LinearSolve, StateSpaceSolve | `__init__` (190), `make_node` (195), `infer_shape` (202), `perform` (206), `pullback` (212), `numba_funcify_CycleReductionWrapper` (223), `cycle_reduction` (232) |
| solvers/gensys.py | Gensys, GensysParts, StateSpaceSolve | `__init__` (638), `make_node` (642), `pullback` (668), `_prep` (694), `_prep` (699) |
| solvers/shared.py | LinearSolve | — |
| solvers/sparse_root/base.py | PFSolve, SolverReuse, SparseRoot | `__call__` (21) |
| solvers/sparse_root/direction.py | SparseRoot | `compute` (18), `__post_init__` (25), `reset` (79), `reset` (154) |
| solvers/sparse_root/dogleg.py | SparseRoot | — |
| solvers/sparse_root/gauss_newton.py | SparseRoot | — |
| solvers/sparse_root/globalization.py | PFSolve, SolverReuse, SparseRoot | `search` (30) |
| solvers/sparse_root/levenberg_marquardt.py | SparseRoot | — |
| solvers/sparse_root/line_search.py | PFSolve, SolverReuse, SparseRoot | `InexactNewtonKrylov` (103), `NewtonNonmonotone` (114) |
| solvers/sparse_root/sparse_root.py | SolverReuse, SparseRoot | — |
<!-- /coverage -->

## Findings

Behaviours found while modelling, most of them proved as `_violated` or as sharp hypotheses of a theorem.

* **Parser.** Calibration equations whose right side starts with a word having a distribution name as prefix are rejected (E009). Unary minus binds tighter than `^`. Shock distribution arguments are not evaluated (compound number expressions stay parse trees) and the shock's written date is discarded. Special blocks only before model blocks; repeated special blocks or components overwrite. Prior number expressions mixing operators raise TypeError. Undefined-variable check ignores left sides. `preprocess(validate=True)` never raises. A STEADY block is treated both as steady-state block and as ordinary block; duplicate block names overwrite; a second steady-state block is ignored; cross-class duplicate parameters go undetected.
* **Printer.** Printing drops equation tags and shock distributions; a printed tryreduce list is unparseable.
* **Errors.** `with_location`/`with_context` on GCNSemanticError raises TypeError; on GCNGrammarError they lose expected/found. Columns are wrong after tabs (pyparsing expands them). A variable's end column is 2 too large for dates other than `[]`. A time index containing `||GCN||` loses the error code. Report carets are misaligned for line numbers ≥ 10000. `splitlines` and '\n' counting differ for \r, \f.
* **Distributions.** `to_distribution` ignores shock distributions and later blocks override earlier priors; hyper-priors declared in a later block than the shock are not linked; non-Normal shock distributions are dropped.
* **Blocks.** Blocks with the same initials share generated multiplier symbols; `short_name` raises IndexError for names like "A__B"; the multiplier record can be misplaced; definitions are substituted only at the written date; Cobb-Douglas/CES recognition: sign error for a flipped constraint, definitions not substituted in the objective, lagged input term lost, RuntimeError for a block with a definition and an unnamed multiplier.
* **Building.** The orphan check ignores undefined parameters that a definition mentions; a hyper-parameter used in an equation is reported as orphan; a deterministic parameter used only in calibrating equations is dropped silently. simplify_constants takes the first root only, replaces x at all dates when only x[ss] is pinned, IndexError for an unsolvable pin. tryreduce drops an equation that restricts other variables. Natural sort ties x1/x01; symbols with the same name but different assumptions are lost in the timing classification.
* **Steady state.** `_substitute_and_filter` drops equations without unknowns even if false; contradictory user values pass propagation; unit_interval variables also get `positive`, so bounds (1e-8, None); `bounds` are looked up by `x_ss`, plain names silently ignored; a one-sided user bound replaces declared positivity; default start 0.8 outside user bounds gives a NaN start; `Model.get` without a close match indexes an empty list; fixed_values on calibrated parameters rejected; linear models ignore fixed_values; a fixed value overriding an analytic one leaves the others stale; success flag = optimizer success OR check of the remaining equations only; a NaN residual passes `abs(val) > 1e-8`; compile_known_ss(return_symbolic=True) mislabels.
* **Linearisation.** loglin flags are looked up by position in the steady_state dict; loglin_negative_ss=True has no effect unless declared positive; the `verbose not in steady_state_kwargs` test is wrong; docstring swaps A and C. `_maybe_linearize_model` returns an incomplete subset with verbose=False as is.
* **Solvers.** gensys: existence flag checks only rank ≥ n_unstable; unpack error on coincident zeros; codes (0,1) reported as unknown. BK: reported eigenvalues have flipped sign (symbolic and numeric opposite); passes without a solution existing (counts only); tol in the denominator shifts the boundary; fixed eps=1e-8 in the symbolic version; gradients hold the steady state fixed. Cycle reduction: "Optimization successful" when passes run out; failure → `np.ascontiguousarray(None)` raises; numba kernel returns zeros when not converged. solve_model ignores the steady-state success flag, raises AttributeError on a plain dict steady state; solver silently replaced by backward_direct for backward-looking models. Residual norms look only at state columns of T; NaN norms count as success.
* **Diagnostics, sampling.** `solvability_check(cores>1)` uses `imap_unordered` and zips with samples in input order; unknown solver labels every draw "perturbation"; `itertuples` renames keyword/underscore/duplicate columns; empty samples → ValueError; np.integer/Generator seeds ignored for QMC; poisson_disk may return fewer rows; n=0 accepted for sobol; HDI fallback covers 2p−1 and is reversed for p ≤ 1/2.
* **Simulation, statistics.** IRF: a dict naming one shock is broadcast in joint mode, 2 ≤ m < k raises a broadcast error, default call / multiple specs raise unpacking errors, orthogonalize_shocks has no effect; autocovariance ignores shock_std_dict; list shock_std TypeError; matrix_to_dataframe mislabels when n_vars = n_shocks.
* **Perfect foresight.** The stacked Jacobian drops entries that are zero in period 0; param_paths leave deterministic parameters stale; non-monotone history is not reset between solves; root finder success may come from x_tol only.
* **State space.** Measurement-error variances go on diagonal positions 0..len-1 in order of `measurement_error`; norm check mixes solver column order with user order; a second `configure` validates observed names against earlier state_names; stale `_n_steps`; observation equations accept `Q[ss]` of unknown variables; `lag_step=0` behaves like 1; prepare_mixed_frequency_data drops/misplaces rows with gaps or period-end dates.
* **Block rewrites.** `local_nested_join_to_block_diagonal` does not check that column widths align.
* **Dynare export.** Parameter and initial values rounded to 3 decimals; the `parameters` line declares only free parameters while deterministic ones are assigned undeclared and calibrated ones neither; `#X_ss` may refer to an undefined `_ss`; bare `varexo;`/`parameters;`; shock stderr always 0.01; write_steady_state raises for calibrated parameters without a full analytic steady state; cse temporaries may clash with parameter names; `K_ss` clashes with K[ss]; Dynare keywords not checked.
