{
 "claims": [
  {
   "property": "C01",
   "status": "proved",
   "theorems": [
    "GE.C01_name_injective",
    "GE.C01_safe_name_injective",
    "GE.C01_name_format",
    "GE.C01_safe_name_collision_with_operator_characters"
   ],
   "note": "name injective for every base name; safe_name for base names without +/- (all GCN identifiers); the collision for others is exhibited"
  },
  {
   "property": "C02",
   "status": "proved",
   "theorems": [
    "GE.C02_forward_n",
    "GE.C02_backward_n",
    "GE.C02_inverse",
    "GE.C02_ss_step_raises",
    "GE.C02_docstring_violated",
    "GE.C02_ss_roundtrip",
    "GE.C02_set_t"
   ],
   "note": "stepping a steady-state symbol raises; the to_ss docstring promise that it is a no-op is refuted for every symbol (C02_docstring_violated)"
  },
  {
   "property": "C03",
   "status": "partial",
   "theorems": [
    "GE.C03_string_roundtrip_partial",
    "GE.C03_deep_index_lost",
    "GE.C03_clash_loses_entry",
    "GE.C03_key_string_roundtrip",
    "GE.C03_inplace_roundtrip_partial",
    "GE.C03_symbol_of_string"
   ],
   "note": "holds for dates t-1,t,t+1,ss without name clashes; false for every |t|>=2 (C03_deep_index_lost) and for clashing names"
  },
  {
   "property": "C04",
   "status": "partial",
   "theorems": [
    "GE.C04_one_kind_partial",
    "GE.C04_constructor",
    "GE.C04_update_plain_mixes",
    "GE.C04_update_dict_mixes"
   ],
   "note": "invariant over all histories except the two unchecked update() forms; both are shown to break it"
  },
  {
   "property": "C05",
   "status": "partial",
   "theorems": [
    "GE.C05_copy_shares_metadata",
    "GE.C05_or_mutates_left",
    "GE.C05_to_ss_mutates_receiver",
    "GE.C05_conversions_frame_partial",
    "GE.C05_update_partial"
   ],
   "note": "false as stated: copy, | and to_ss share metadata with the receiver (three witnesses); frame theorem for the conversions that are safe"
  },
  {
   "property": "C06",
   "status": "proved",
   "theorems": [
    "GE.C06_to_ss"
   ],
   "note": "sympy-keyed dictionaries"
  },
  {
   "property": "C07",
   "status": "partial",
   "theorems": [
    "GE.C07_all_indices_near_partial",
    "GE.C07_calibration_not_expanded"
   ],
   "note": "all equations and controls of all blocks; calibration equations are not expanded by the code (witness)"
  },
  {
   "property": "C08",
   "status": "proved",
   "theorems": [
    "GE.C08_model",
    "GE.C08_expanded_solution_solves_original",
    "GE.C08_original_solution_extends",
    "GE.C08_clash_changes_meaning"
   ],
   "note": "both directions and uniqueness, for every interpretation of operators/functions; the name-clash case is refuted by a witness"
  },
  {
   "property": "C09",
   "status": "proved",
   "theorems": [
    "GE.C09_shallow_unchanged",
    "GE.C09_idempotent",
    "GE.C09_other_fields_kept"
   ],
   "note": ""
  },
  {
   "property": "C10",
   "status": "partial",
   "theorems": [
    "GE.C10_block_stays_square_partial",
    "GE.C10_shared_lag_duplicates_identities"
   ],
   "note": "one identity per auxiliary variable within a block; false across blocks that share a deep lag (witness)"
  },
  {
   "property": "C11",
   "status": "partial",
   "theorems": [
    "GE.C11_same_tree_partial",
    "GE.C11_same_meaning_partial",
    "GE.C11_violated",
    "GE.C11_violated_meaning",
    "GE.C11_equation_partial",
    "GE.C11_tags_lost",
    "GE.C11_block_partial",
    "GE.C11_shock_prior_lost",
    "GE.C11_tryreduce_unparseable"
   ],
   "note": "same tree/meaning for expressions without the precedence shapes the printer loses; the losing shapes, lost tags and lost shock priors are exhibited"
  },
  {
   "property": "C12",
   "status": "proved",
   "theorems": [
    "GE.C12_step_forward",
    "GE.C12_step_backward",
    "GE.C12_inverse",
    "GE.C12_steady_state_rejected"
   ],
   "note": "for equations without steady-state symbols and any hash order; ss equations raise"
  },
  {
   "property": "C13",
   "status": "proved",
   "theorems": [
    "GE.C13_steady_state"
   ],
   "note": "for every expression"
  },
  {
   "property": "C14",
   "status": "partial",
   "theorems": [
    "GE.C14_finite_horizon",
    "GE.C14_infinite_horizon",
    "GE.C14_absent",
    "GE.C14_default_raises",
    "GE.C14_steady_state_raises",
    "GE.C14_time_varying_one_lag",
    "GE.C14_time_varying_violated"
   ],
   "note": "finite and infinite discounted sums, absent variables, default discount factor and steady-state symbols raise; for a time-varying discount factor the result is wrong beyond one lag (C14_time_varying_violated)"
  },
  {
   "property": "C15",
   "status": "partial",
   "theorems": [
    "GE.C15_cycle_iff",
    "GE.C15_keys",
    "GE.C15_same_values",
    "GE.C15_resolved_partial",
    "GE.C15_self_reference_violated"
   ],
   "note": "cycle detection exact, same values; resolved except self references, which are silently left (witness)"
  },
  {
   "property": "C16",
   "status": "proved",
   "theorems": [
    "GE.C16_block_counts",
    "GE.C16_block_iff",
    "GE.C16_block_names",
    "GE.C16_parameters",
    "GE.C16_model_iff"
   ],
   "note": "Exact: counts of duplicate reports per block and per model, and has_errors iff some duplicate exists."
  },
  {
   "property": "C17",
   "status": "partial",
   "theorems": [
    "GE.C17_validate_ignored",
    "GE.C17_semantic_errors_accepted",
    "GE.C17_explicit_validate_partial"
   ],
   "note": "The claim fails as stated: preprocess(validate=True) calls result.validate(raise_on_error=False), so it never raises semantic errors (C17_validate_ignored, C17_semantic_errors_accepted). What holds is proved in C17_explicit_validate_partial."
  },
  {
   "property": "C18",
   "status": "partial",
   "theorems": [
    "GE.C18_right_hand_sides_partial",
    "GE.C18_left_hand_side_missed",
    "GE.C18_parameters",
    "GE.C18_full_partial"
   ],
   "note": "check_undefined_variables reads only right-hand sides; C18_left_hand_side_missed exhibits the missed warning. Exact characterisation for right-hand sides and for parameters is proved; C18_full_partial: what the complete validate_model pipeline reports of this kind."
  },
  {
   "property": "C19",
   "status": "partial",
   "theorems": [
    "GE.C19_duplicates",
    "GE.C19_merge",
    "GE.C19_cross_class_violated",
    "GE.C19_same_name_violated",
    "GE.C19_load_partial"
   ],
   "note": "Merging of one class of parameters is proved exact; violated across classes (C19_cross_class_violated) and for blocks sharing a name (C19_same_name_violated)."
  },
  {
   "property": "C20",
   "status": "proved",
   "theorems": [
    "GE.C20_numbering",
    "GE.C20_flags"
   ],
   "note": "numbering and component placement for every parsed block"
  },
  {
   "property": "C21",
   "status": "partial",
   "theorems": [
    "GE.C21_computed_rejected",
    "GE.C21_classes",
    "GE.C21_duplicates_raise",
    "GE.C21_computed_value",
    "GE.C21_cross_class_violated",
    "GE.C21_dynamic_calibrating_raises"
   ],
   "note": "trichotomy, duplicates and computed values proved; a name defined in two classes (e.g. parameter and calibrating equation) is not rejected (witness)"
  },
  {
   "property": "C22",
   "status": "partial",
   "theorems": [
    "GE.C22_lagrangian",
    "GE.C22_user_multiplier",
    "GE.C22_distinct",
    "GE.C22_recorded_partial",
    "GE.C22_record_lost",
    "GE.C22_record_misplaced",
    "GE.C22_cross_block_violated"
   ],
   "note": "Lagrangian value, one multiplier per constraint, distinctness proved; the record is right only when no multiplier is named and constraints start at number 1; three witnesses where it is lost/misplaced/shared"
  },
  {
   "property": "C23",
   "status": "proved",
   "theorems": [
    "GE.C23_no_optimisation",
    "GE.C23_equations",
    "GE.C23_foc_is_derivative",
    "GE.C23_discount_bellman",
    "GE.C23_discount_static",
    "GE.C23_no_constraints_raises",
    "GE.C23_total"
   ],
   "note": "equations, their values and first-order conditions for every block that solves; sufficient conditions for solving; no constraints => AttributeError is exhibited"
  },
  {
   "property": "C24",
   "status": "partial",
   "theorems": [
    "GE.C24_closed_form_partial",
    "GE.C24_flipped_violated",
    "GE.C24_unrecorded_raises",
    "GE.C24_generic_unchanged",
    "GE.C24_block_partial",
    "GE.C24_definitions_violated",
    "GE.C24_lagged_input_violated"
   ],
   "note": "Closed-form Cobb-Douglas FOC = derivative of the Lagrangian (per control and for the whole solved block) for any arity/exponents, with the output on the left, no definitions, control only at its own date. Proved false otherwise: flipped constraint (sign error), definitions (not substituted in the objective), lagged input (term lost), unnamed multiplier in a block with a definition (RuntimeError). sympy's expand is an oracle that must keep values near the point."
  },
  {
   "property": "C25",
   "status": "partial",
   "theorems": [
    "GE.C25_closed_form_partial",
    "GE.C25_flipped_violated"
   ],
   "note": "Closed-form CES FOC = derivative of the Lagrangian for any arity, shares and elasticity under the same restrictions; flipped constraint proved wrong. sympy canonicalisation/simplify are oracles whose required properties are stated."
  },
  {
   "property": "C26",
   "status": "partial",
   "theorems": [
    "GE.C26_definitions",
    "GE.C26_not_square",
    "GE.C26_absent",
    "GE.C26_removed_equations",
    "GE.C26_solutions_kept",
    "GE.C26_solutions_extend_partial",
    "GE.C26_definition_solvable",
    "GE.C26_at_most_one_each",
    "GE.C26_unsolvable_violated"
   ],
   "note": "removed equations, absence and kept solutions for every system; extension of solutions back to the original needs the removed definitions to be solvable for the removed variable (C26_definition_solvable gives it for the substituted ones, C26_unsolvable_violated shows a dropped equation that restricts other variables)"
  },
  {
   "property": "C27",
   "status": "partial",
   "theorems": [
    "GE.C27_not_square",
    "GE.C27_no_trivial",
    "GE.C27_solutions_partial",
    "GE.C27_eliminated",
    "GE.C27_first_root_violated",
    "GE.C27_steady_state_violated",
    "GE.C27_unsolvable_raises"
   ],
   "note": "exact equivalence of solutions when every pinning equation has one root and speaks about a dated symbol; sympy's first root of several and steady-state pins break the claim (C27_first_root_violated, C27_steady_state_violated), unsolvable pins raise"
  },
  {
   "property": "C28",
   "status": "proved",
   "theorems": [
    "GE.C28_comparable",
    "GE.C28_order",
    "GE.C28_numeric",
    "GE.C28_text",
    "GE.C28_tie_violated",
    "GE.C28_rejects",
    "GE.C28_membership",
    "GE.C28_assumptions_violated",
    "GE.C28_sorted",
    "GE.C28_iteration_order",
    "GE.C28_combinations"
   ],
   "note": "sort key comparable for all names, natural order proved (numeric and textual part), membership exact when names carry one set of assumptions, rejection exact; ties x1/x01 leave the order to the hash order (C28_tie_violated) and double assumptions lose a symbol"
  },
  {
   "property": "C29",
   "status": "partial",
   "theorems": [
    "GE.C29_entries_exact",
    "GE.C29_stacked_jacobian_partial",
    "GE.C29_arrays_filled",
    "GE.C29_violated",
    "GE.C29_is_derivative_at",
    "GE.C29_is_derivative",
    "GE.C29_singular_violated"
   ],
   "note": "Exact formula proved for every sequence of Jacobians; equal to the block-tridiagonal derivative matrix only when no derivative zero in period 0 is nonzero later (C29_violated, C29_singular_violated show the failure end to end)."
  },
  {
   "property": "C30",
   "status": "proved",
   "theorems": [
    "GE.C30_residuals",
    "GE.C30_zero_iff",
    "GE.C30_same_residuals"
   ],
   "note": ""
  },
  {
   "property": "C31",
   "status": "proved",
   "theorems": [
    "GE.C31_validation",
    "GE.C31_shock_matrix",
    "GE.C31_param_matrix"
   ],
   "note": ""
  },
  {
   "property": "C32",
   "status": "proved",
   "theorems": [
    "GE.C32_chord",
    "GE.C32_slope",
    "GE.C32_monotone",
    "GE.C32_directions",
    "GE.C32_search_succeeds"
   ],
   "note": "Exact real arithmetic. Merit evaluated by the user's merit_fun must agree with the residual function (ConsistentMerit)."
  },
  {
   "property": "C33",
   "status": "partial",
   "theorems": [
    "GE.C33_window_partial",
    "GE.C33_reuse_violated"
   ],
   "note": "Proved for a fresh solver object. C33_reuse_violated shows the leak: the history deque belongs to the globalization object and init does not clear it."
  },
  {
   "property": "C34",
   "status": "proved",
   "theorems": [
    "GE.C34_dogleg_inside",
    "GE.C34_steihaug_inside",
    "GE.C34_steihaug_no_zero_division",
    "GE.C34_steihaug_predicted_positive",
    "GE.C34_step",
    "GE.C34_run"
   ],
   "note": "Any Jacobian, residuals and linear solver; exact real arithmetic. Also: CG loop never divides by a zero direction, and the Steihaug step always has positive predicted reduction."
  },
  {
   "property": "C35",
   "status": "proved",
   "theorems": [
    "GE.C35_bounded_and_consistent",
    "GE.C35_success",
    "GE.C35_solvers",
    "GE.C35_success_without_root"
   ],
   "note": "HonestStep is proved for every solver of the package. C35_success_without_root records that success may come from the step test alone."
  },
  {
   "property": "C36",
   "status": "proved",
   "theorems": [
    "GE.C36_backward",
    "GE.C36_path_solves",
    "GE.C36_necessary",
    "GE.C36_backward_is_general"
   ],
   "note": "over the reals (no rounding); both directions: returned pair is the unique solution, paths of the rule solve the model for every mean-zero next shock, and the converse"
  },
  {
   "property": "C37",
   "status": "partial",
   "theorems": [
    "GE.C37_closed_form",
    "GE.C37_simulate",
    "GE.C37_individual",
    "GE.C37_individual_trajectory",
    "GE.C37_superpose_partial",
    "GE.C37_scaling",
    "GE.C37_zero",
    "GE.C37_orthogonalize_ignored",
    "GE.C37_dict_joint_violated",
    "GE.C37_dict_joint_raises",
    "GE.C37_covariance",
    "GE.C37_joint_trajectory"
   ],
   "note": "Closed form at every horizon, individual responses equal size times the column of T^t R, superposition for every specification that names all shocks, scaling, zero shock. Partial because the full claim is false: a dictionary naming one shock with return_individual_shocks=False applies its size to every shock (C37_dict_joint_violated), one naming two or more but not all raises (C37_dict_joint_raises). orthogonalize_shocks has no effect (C37_orthogonalize_ignored). Random draws and the Cholesky factor are arguments of the model."
  },
  {
   "property": "C38",
   "status": "partial",
   "theorems": [
    "GE.C38_exactly_one_partial",
    "GE.C38_accepts",
    "GE.C38_dict_names",
    "GE.C38_violated",
    "GE.C38_kind"
   ],
   "note": "The check accepts exactly the calls with one specification. The rest of the claim is false of the code: no specification (the documented default) and several specifications both raise tuple-unpacking errors instead of the explanatory one (C38_violated)."
  },
  {
   "property": "C39",
   "status": "proved",
   "theorems": [
    "GE.C39_assumption",
    "GE.C39_equation_order",
    "GE.C39_variable_order",
    "GE.C39_zero_blocks",
    "GE.C39_user_matrices",
    "GE.C39_default_all",
    "GE.C39_succeeds",
    "GE.C39_negative_request_ignored"
   ],
   "note": "Orders are permutations with the documented groups and counts (C39_equation_order, C39_variable_order), zero blocks of A and C, and the matrices handed to the user are in the user's order with entries that are the real derivatives at the steady state with respect to levels or logs (C39_user_matrices). Findings: duplicate variables raise IndexError; asking for logs of a non-positive steady state has no effect unless declared positive (C39_negative_request_ignored). Not modelled: CSE, pytensor compilation, the symbolic cache."
  },
  {
   "property": "C40",
   "status": "proved",
   "theorems": [
    "GE.C40_report",
    "GE.C40_unstable_count",
    "GE.C40_necessary",
    "GE.C40_sign_flipped",
    "GE.C40_not_sufficient"
   ],
   "note": "C40_report is the exact decision table of check_bk_condition; C40_unstable_count shows the counted number is the number of pairs with |beta| >= |alpha| when no root is within the tolerance of the unit circle; C40_necessary: whenever gensys returns a solution the check passes; findings proved: C40_not_sufficient (check passes with no solution), C40_sign_flipped (reported values are minus the roots, because the already negated Gamma_0 is negated again). Division by alpha + tol = 0 is excluded."
  },
  {
   "property": "C41",
   "status": "partial",
   "theorems": [
    "GE.C41_orphan",
    "GE.C41_orphan_partial",
    "GE.C41_extra",
    "GE.C41_outcomes",
    "GE.C41_orphan_violated",
    "GE.C41_hyper_in_equation_violated",
    "GE.C41_hyper",
    "GE.C41_hyper_kept"
   ],
   "note": "Orphans and superfluous parameters are characterised exactly (C41_orphan, C41_extra, C41_outcomes). The claim as stated holds when definitions mention only defined parameters (C41_orphan_partial); it is false of the code otherwise: a parameter without a value that some definition mentions is not reported (C41_orphan_violated, C41_hyper_in_equation_violated)."
  },
  {
   "property": "C42",
   "status": "proved",
   "theorems": [
    "GE.C42_suggestions"
   ],
   "note": ""
  },
  {
   "property": "C43",
   "status": "partial",
   "theorems": [
    "GE.C43_no_loss_partial",
    "GE.C43_violated"
   ],
   "note": "holds when no component is declared twice; false otherwise (witness)"
  },
  {
   "property": "C44",
   "status": "proved",
   "theorems": [
    "GE.C44_symbol",
    "GE.C44_file",
    "GE.C44_assumptions"
   ],
   "note": "C44_assumptions: what the assumption blocks yield. C44_symbol: the flags of a converted variable at any date, whatever dictionary the caller gives: declared values win, real and finite otherwise, nothing else. C44_file: the two together. sympy's own inferences from the flags and its refusal of contradictory flags are not modelled."
  },
  {
   "property": "C45",
   "status": "proved",
   "theorems": [
    "GE.C45_kept",
    "GE.C45_lookup",
    "GE.C45_identity_holds",
    "GE.C45_implied",
    "GE.C45_closed_form",
    "GE.C45_exhaustive",
    "GE.C45_contradiction_unnoticed",
    "GE.C45_order",
    "GE.C45_consistent",
    "GE.C45_iteration_limit_violated"
   ],
   "note": ""
  },
  {
   "property": "C46",
   "status": "partial",
   "theorems": [
    "GE.C46_sound",
    "GE.C46_one_operator_partial",
    "GE.C46_mixed_violated"
   ],
   "note": "Soundness for every expression incl. parentheses; completeness for single-operator chains; expressions mixing operators always raise (C46_mixed_violated)."
  },
  {
   "property": "C47",
   "status": "partial",
   "theorems": [
    "GE.C47_Q",
    "GE.C47_stationary",
    "GE.C47_autocovariance_partial",
    "GE.C47_autocorrelation",
    "GE.C47_dict_violated",
    "GE.C47_list_violated",
    "GE.C47_messages_swapped",
    "GE.C47_limit",
    "GE.C47_from_zero"
   ],
   "note": "The Q matrix is exactly the one described (C47_Q); the stationary covariance and every lag are the covariances of a process of the model (stated for an arbitrary covariance form); uniqueness, limit, symmetry and semidefiniteness in stable models. Partial because the claim is false for shock_std_dict (never reaches autocovariance_matrix, C47_dict_violated) and for a list of standard deviations (C47_list_violated). scipy's Lyapunov solver is assumed to return a solution of its equation."
  },
  {
   "property": "C48",
   "status": "partial",
   "theorems": [
    "GE.C48_shallow_partial",
    "GE.C48_deep_lag_violated"
   ],
   "note": "holds for blocks without deep indices; false with a second lag of a control (witness: the b**2*x[2] term is missing)"
  },
  {
   "property": "C49",
   "status": "partial",
   "theorems": [
    "GE.C49_consolidate",
    "GE.C49_consolidate_closed_partial",
    "GE.C49_consolidate_error_iff",
    "GE.C49_written_date_partial",
    "GE.C49_other_dates_violated"
   ],
   "note": "written date only; other dates survive (witness)"
  },
  {
   "property": "C50",
   "status": "partial",
   "theorems": [
    "GE.C50_direct_partial",
    "GE.C50_log_utility_violated",
    "GE.C50_offset_violated"
   ],
   "note": "holds when the solver returns a same-date variable or constant; log utility and offset dates are refuted"
  },
  {
   "property": "C51",
   "status": "proved",
   "theorems": [
    "GE.C51_same_value",
    "GE.C51_equation",
    "GE.C51_total",
    "GE.C51_two_converters_opposite_sign"
   ],
   "note": "every expression; the two converters in the repository give zero-forms of opposite sign (both proved)"
  },
  {
   "property": "C52",
   "status": "partial",
   "theorems": [
    "GE.C52_closed_partial",
    "GE.C52_closed_defs_partial",
    "GE.C52_merge"
   ],
   "note": "Merging proved exact; closure of the equations under variables+shocks proved for models without definitions (C52_closed_partial) and for models whose blocks use their definitions at the date they are written (C52_closed_defs_partial, hypothesis DefsNow). Without that the claim is false in the code: a definition used at another date survives in the equations (C49)."
  },
  {
   "property": "C53",
   "status": "partial",
   "theorems": [
    "GE.C53_skipped_names",
    "GE.C53_blocks_partial",
    "GE.C53_same_name_violated",
    "GE.C53_steady_violated"
   ],
   "note": "Proved for blocks with distinct names; violated for equal names and for a steady-state block named STEADY."
  },
  {
   "property": "C54",
   "status": "partial",
   "theorems": [
    "GE.C54_ss_names",
    "GE.C54_values",
    "GE.C54_first_block_only"
   ],
   "note": "Values proved for the first steady-state block; later ones are ignored (C54_first_block_only). Full substitution: C15_resolved_partial."
  },
  {
   "property": "C55",
   "status": "partial",
   "theorems": [
    "GE.C55_entry_iff",
    "GE.C55_shock",
    "GE.C55_later_prior_violated",
    "GE.C55_linked_partial"
   ],
   "note": "Linked for priors of the same or an earlier block; violated for later blocks."
  },
  {
   "property": "C56",
   "status": "proved",
   "theorems": [
    "GE.C56_tryreduce"
   ],
   "note": "Exact, for distinct base names."
  },
  {
   "property": "C57",
   "status": "partial",
   "theorems": [
    "GE.C57_parameters",
    "GE.C57_paths_partial",
    "GE.C57_stale_violated"
   ],
   "note": "Model.parameters fully specified; the per-period consistency holds when all compiled parameters are free and fails for deterministic ones (C57_stale_violated)."
  },
  {
   "property": "C58",
   "status": "partial",
   "theorems": [
    "GE.C58_types_partial",
    "GE.C58_integer_violated",
    "GE.C58_names",
    "GE.C58_boundary",
    "GE.C58_boundary_params"
   ],
   "note": "The vector is the user's value or the steady state's (C58_boundary); fails when x0 is a dictionary of Python integers: the user's float conditions are truncated (C58_integer_violated). C58_types_partial says when the types do not matter."
  },
  {
   "property": "C59",
   "status": "proved",
   "theorems": [
    "GE.C59_piecewise"
   ],
   "note": ""
  },
  {
   "property": "C60",
   "status": "proved",
   "theorems": [
    "GE.C60_step",
    "GE.C60_run",
    "GE.C60_predicted_positive"
   ],
   "note": "Exact real arithmetic; solver exceptions are none."
  },
  {
   "property": "C61",
   "status": "partial",
   "theorems": [
    "GE.C61_distance",
    "GE.C61_error_bound",
    "GE.C61_exact",
    "GE.C61_backward",
    "GE.C61_report",
    "GE.C61_a2_message_violated",
    "GE.C61_success_violated",
    "GE.C61_failure_violated",
    "GE.C61_policy",
    "GE.C61_kernel_agrees",
    "GE.C61_scan_distance_partial",
    "GE.C61_scan_jitter",
    "GE.C61_scan_jitter_violated",
    "GE.C61_scan_stops"
   ],
   "note": "distance to any true solution by induction over the passes, exactness when A2 vanishes, report and kernel agreement; violated: success is reported when passes run out with A2 not converged (C61_success_violated), the A2 message is unreachable, and a failure raises from numpy instead of being reported (C61_failure_violated). The scan version with its jitter: exact error recurrence (C61_scan_jitter), and C61_scan_jitter_violated: with C=0 it returns a matrix that solves the system with B+jI, never the model's."
  },
  {
   "property": "C62",
   "status": "proved",
   "theorems": [
    "GE.C62_gradient",
    "GE.C62_exists"
   ],
   "note": "exact with the jitter term made explicit, for every differentiable curve of solutions; existence of the adjoints characterised"
  },
  {
   "property": "C63",
   "status": "partial",
   "theorems": [
    "GE.C63_maybe_solve",
    "GE.C63_maybe_linearize_partial",
    "GE.C63_linearize_violated"
   ],
   "note": "Holds for T, R; for the Jacobians it fails with verbose=False (C63_linearize_violated)."
  },
  {
   "property": "C64",
   "status": "partial",
   "theorems": [
    "GE.C64_labels_partial",
    "GE.C64_equal_sizes_violated",
    "GE.C64_equations",
    "GE.C64_explicit"
   ],
   "note": "Holds when the numbers of variables and shocks differ; violated when they are equal (C64_equal_sizes_violated)."
  },
  {
   "property": "C65",
   "status": "partial",
   "theorems": [
    "GE.C65_given_steady_state_partial",
    "GE.C65_nan_violated"
   ],
   "note": "Holds for real residuals; NaN residuals are accepted (C65_nan_violated)."
  },
  {
   "property": "C66",
   "status": "partial",
   "theorems": [
    "GE.C66_flags",
    "GE.C66_selected",
    "GE.C66_unknown",
    "GE.C66_position_partial"
   ],
   "note": "Flags proved when the steady-state dictionary lists variables then calibrated parameters in order (C66_flags, C66_selected, C66_unknown). The full property fails for a steady state given in another order: values are matched by position (C66_position_partial)."
  },
  {
   "property": "C67",
   "status": "proved",
   "theorems": [
    "GE.C67_accepted_iff",
    "GE.C67_errors",
    "GE.C67_constructed"
   ],
   "note": "Iff-characterisation of Block._validate_initialization against an independent specification (WellFormedBlock), the documented exceptions, and that every constructed block passed it."
  },
  {
   "property": "C68",
   "status": "proved",
   "theorems": [
    "GE.C68_solution",
    "GE.C68_unique",
    "GE.C68_real",
    "GE.C68_wrappers"
   ],
   "note": "LAPACK (ordered QZ, SVD) enters through contracts in exact arithmetic (SortedQZ, ThinSVD); every discarded singular value and every column of C within tolerance is assumed exactly zero. C68_solution, C68_unique, C68_real, C68_wrappers cover the claim for all systems meeting them; concrete rational instance in GensysExample.lean. Finding: with coincident zeros GensysWrapper.perform raises an unpacking error while the numba wrapper returns zeros and False."
  },
  {
   "property": "C69",
   "status": "proved",
   "theorems": [
    "GE.C69_existence",
    "GE.C69_uniqueness",
    "GE.C69_coincident",
    "GE.C69_count",
    "GE.C69_solved_iff",
    "GE.C69_messages"
   ],
   "note": "C69_existence, C69_uniqueness, C69_solved_iff, C69_coincident, C69_count, C69_messages. Finding: 'unique but does not exist' (codes 0, 1) is reported as 'Unknown return code' (C69_messages)."
  },
  {
   "property": "C70",
   "status": "proved",
   "theorems": [
    "GE.C70_system",
    "GE.C70_solves_iff",
    "GE.C70_undated"
   ],
   "note": "system_to_steady_state, via C13; simplify is an oracle that keeps values."
  },
  {
   "property": "C71",
   "status": "proved",
   "theorems": [
    "GE.C71_error",
    "GE.C71_values"
   ],
   "note": "Over the reals; pytensor graph evaluation is not modelled."
  },
  {
   "property": "C72",
   "status": "partial",
   "theorems": [
    "GE.C72_known",
    "GE.C72_same_solutions",
    "GE.C72_has_unknown",
    "GE.C72_nothing_known",
    "GE.C72_system",
    "GE.C72_known_gone",
    "GE.C72_after_propagation",
    "GE.C72_dropped_violated",
    "GE.C72_remains_violated"
   ],
   "note": "Simultaneous substitution (graph_replace). Violations: equations without unknowns are dropped even when false (C72_dropped_violated); a given value mentioning another known variable brings it back (C72_remains_violated)."
  },
  {
   "property": "C73",
   "status": "partial",
   "theorems": [
    "GE.C73_known",
    "GE.C73_symbolic_partial",
    "GE.C73_symbolic_violated"
   ],
   "note": "return_symbolic=True zips all variables with the outputs: right only when all values are known (C73_symbolic_partial), mislabelled otherwise (C73_symbolic_violated)."
  },
  {
   "property": "C74",
   "status": "proved",
   "theorems": [
    "GE.C74_simplified",
    "GE.C74_auxiliaries_gone"
   ],
   "note": "Via C15 (flatten_substitution_dict). Auxiliary definitions that mention themselves are excluded in C74_auxiliaries_gone (cf. C15_self_reference_violated)."
  },
  {
   "property": "C75",
   "status": "proved",
   "theorems": [
    "GE.C75_split"
   ],
   "note": "Fully proved; the consequence that a hyper-parameter used in an equation is reported as an orphan is C41_hyper_in_equation_violated."
  },
  {
   "property": "C76",
   "status": "partial",
   "theorems": [
    "GE.C76_split",
    "GE.C76_later_block_violated"
   ],
   "note": "The split itself is proved. The last clause fails when the parameter is declared in a later block than the shock (C76_later_block_violated)."
  },
  {
   "property": "C77",
   "status": "partial",
   "theorems": [
    "GE.C77_resolved",
    "GE.C77_values",
    "GE.C77_calibration_violated"
   ],
   "note": "Use is looked for in equations and steady-state relations only: a deterministic parameter used only by a calibrating equation is dropped and then undefined (C77_calibration_violated)."
  },
  {
   "property": "C78",
   "status": "partial",
   "theorems": [
    "GE.C78_unchanged",
    "GE.C78_variables",
    "GE.C78_parameters",
    "GE.C78_closed_partial",
    "GE.C78_steady_state",
    "GE.C78_user_steady_state",
    "GE.C78_solutions_partial",
    "GE.C78_unused_fatal_on_request"
   ],
   "note": "Closedness is partial because definitions may mention undefined parameters (C41_orphan_violated); solutions are kept when pinned variables have unique constant values (C27)."
  },
  {
   "property": "C79",
   "status": "partial",
   "theorems": [
    "GE.C79_user_bound",
    "GE.C79_assumed_bound",
    "GE.C79_open_bound",
    "GE.C79_bijective",
    "GE.C79_same_system",
    "GE.C79_unit_interval_violated",
    "GE.C79_short_name_violated",
    "GE.C79_one_sided_violated",
    "GE.C79_start_violated"
   ],
   "note": "User bounds and assumed bounds are respected by every point reported through a transform (C79_user_bound, C79_assumed_bound), the transforms are bijections (C79_bijective) and the transformed system is equivalent (C79_same_system). Violated for unit_interval variables (upper bound ignored), bounds keyed by the plain variable name (ignored), one-sided bounds (replace the declared positivity), default start outside the bounds (NaN)."
  },
  {
   "property": "C80",
   "status": "proved",
   "theorems": [
    "GE.C80_found",
    "GE.C80_sound",
    "GE.C80_unknown"
   ],
   "note": "Names of the model distinct (C78). The message for names without any close match is an IndexError of an empty list (C80_unknown)."
  },
  {
   "property": "C81",
   "status": "proved",
   "theorems": [
    "GE.C81_accepted_iff",
    "GE.C81_errors"
   ],
   "note": "Complete characterisation of acceptance and of both errors."
  },
  {
   "property": "C82",
   "status": "partial",
   "theorems": [
    "GE.C82_fixed_kept",
    "GE.C82_analytic_kept",
    "GE.C82_every_variable",
    "GE.C82_linear",
    "GE.C82_linear_fixed_violated",
    "GE.C82_calibrated_partial",
    "GE.C82_calibrated_violated",
    "GE.C82_solved"
   ],
   "note": "Values kept and complete: C82_fixed_kept, C82_analytic_kept, C82_every_variable, C82_solved, C82_linear. Calibrated parameters are present whenever a solver or fixed values are involved (C82_calibrated_partial); with a fully analytic steady state the call raises (C82_calibrated_violated). Linear models ignore fixed values (C82_linear_fixed_violated). Solvers and graph evaluation are arbitrary functions."
  },
  {
   "property": "C83",
   "status": "partial",
   "theorems": [
    "GE.C83_assumption",
    "GE.C83_known",
    "GE.C83_success_partial",
    "GE.C83_optimizer_violated",
    "GE.C83_dropped_violated"
   ],
   "note": "Exact characterisation when everything is known (C83_known). Otherwise success means: the optimizer said so, or the equations still having unknowns hold (C83_success_partial). Violated: the optimizer's verdict is not checked (C83_optimizer_violated) and equations without unknowns are dropped unchecked (C83_dropped_violated)."
  },
  {
   "property": "C84",
   "status": "partial",
   "theorems": [
    "GE.C84_checked",
    "GE.C84_reported",
    "GE.C84_override_violated"
   ],
   "note": "Equations determined by the fixed values alone are checked (C84_checked) and reported exactly (C84_reported); equations determined by fixed together with known values are not (C84_override_violated). NaN residuals pass."
  },
  {
   "property": "C85",
   "status": "proved",
   "theorems": [
    "GE.C85_packed"
   ],
   "note": "Evaluation is an arbitrary function that depends on the inputs of the expression only."
  },
  {
   "property": "C91",
   "status": "partial",
   "theorems": [
    "GE.C91_reordered",
    "GE.C91_residual",
    "GE.C91_potentials",
    "GE.C91_norms_partial",
    "GE.C91_norms_violated"
   ],
   "note": "Reordering, residual and potentials proved for all orders. The diagnostic norms are correct when the solver's order is the user's and T loads on the masked variables only (C91_norms_partial); violated otherwise (C91_norms_violated), a finding."
  },
  {
   "property": "C92",
   "status": "proved",
   "theorems": [
    "GE.C92_levels",
    "GE.C92_dynamics",
    "GE.C92_aggregated"
   ],
   "note": "Proved for every accepted configuration along every trajectory."
  },
  {
   "property": "C93",
   "status": "proved",
   "theorems": [
    "GE.C93_linearized",
    "GE.C93_accepts",
    "GE.C93_coefficients",
    "GE.C93_unknown_steady_state_accepted",
    "GE.C93_levels",
    "GE.C93_equation"
   ],
   "note": "Chain rule and lag chains proved for all equations. Steady-state symbols are not checked against the model (C93_unknown_steady_state_accepted), a finding."
  },
  {
   "property": "C94",
   "status": "partial",
   "theorems": [
    "GE.C94_prefix_iff_partial",
    "GE.C94_violated",
    "GE.C94_diagonal",
    "GE.C94_shocks"
   ],
   "note": "The covariance is the declared one exactly when measurement_error is a prefix of observed_states (C94_prefix_iff_partial); otherwise variances land on other series (C94_violated), a finding."
  },
  {
   "property": "C95",
   "status": "partial",
   "theorems": [
    "GE.C95_accepts",
    "GE.C95_stores",
    "GE.C95_well_formed",
    "GE.C95_reconfigure",
    "GE.C95_history_violated",
    "GE.C95_parameters"
   ],
   "note": "Acceptance characterised exactly; history independence holds for calls that observe variables or equations (C95_reconfigure) and is violated for names of auxiliary states of the earlier configuration (C95_history_violated)."
  },
  {
   "property": "C96",
   "status": "partial",
   "theorems": [
    "GE.C96_sound",
    "GE.C96_aligned",
    "GE.C96_gap_violated",
    "GE.C96_period_end_violated"
   ],
   "note": "Soundness for all inputs; exact table for aligned calendars; rows are lost with gaps and misplaced for period-end dates (two _violated theorems)."
  },
  {
   "property": "C97",
   "status": "partial",
   "theorems": [
    "GE.C97_states",
    "GE.C97_agrees",
    "GE.C97_observed",
    "GE.C97_unit",
    "GE.C97_zero_step_partial"
   ],
   "note": "Proved for lag_step >= 1; lag_step=0 is not refused and acts as 1 (C97_zero_step_partial)."
  },
  {
   "property": "C86",
   "status": "partial",
   "theorems": [
    "GE.C86_first_failure",
    "GE.C86_norms",
    "GE.C86_success",
    "GE.C86_nan_violated",
    "GE.C86_bk_escapes_violated",
    "GE.C86_unknown_solver_violated",
    "GE.C86_serial",
    "GE.C86_parallel_collection",
    "GE.C86_parallel_violated",
    "GE.C86_refusals",
    "GE.C86_parameters",
    "GE.C86_keyword_violated",
    "GE.C86_priors",
    "GE.C86_dispatch",
    "GE.C86_escapes",
    "GE.C86_cycle_reduction",
    "GE.C86_renaming"
   ],
   "note": "Labels, norms and parameters proved for every draw and every stage outcome with one core. With several cores the table pairs results and draws wrongly (C86_parallel_violated), NaN norms count as success, BK exceptions escape, an unknown solver is reported as perturbation, keyword column names are lost: findings."
  },
  {
   "property": "C87",
   "status": "partial",
   "theorems": [
    "GE.C87_power_of_two",
    "GE.C87_within",
    "GE.C87_refuses",
    "GE.C87_seed",
    "GE.C87_generator_violated",
    "GE.C87_bounds",
    "GE.C87_fallback_mass_violated",
    "GE.C87_fallback_reversed_violated",
    "GE.C87_ppf",
    "GE.C87_ppf_refuses",
    "GE.C87_ppf_seed"
   ],
   "note": "Engines are arbitrary functions. Proved for all bounds, priors, sizes and engines; a Generator seed is dropped by all methods but random, the HDI fallback covers less than asked and is reversed for p <= 1/2 (violated parts)."
  },
  {
   "property": "C88",
   "status": "partial",
   "theorems": [
    "GE.C88_norms",
    "GE.C88_zero_iff",
    "GE.C88_solves",
    "GE.C88_unseen_columns_violated",
    "GE.C88_truncation_violated",
    "GE.C88_representation"
   ],
   "note": "Exact meaning of the norms proved; they do not look at columns the solution ignores and truncate small entries first (violated parts). C88_solves gives the full claim under the stated conditions."
  },
  {
   "property": "C89",
   "status": "partial",
   "theorems": [
    "GE.C89_sound",
    "GE.C89_error_never_none",
    "GE.C89_ignore_gensys",
    "GE.C89_ignore_violated",
    "GE.C89_arguments",
    "GE.C89_backward_any_solver_violated",
    "GE.C89_failed_steady_state_violated",
    "GE.C89_diagnostics_agree"
   ],
   "note": "LAPACK enters as an oracle with its specification. on_failure=ignore raises for a failed cycle reduction, the solver name is ignored for backward-looking models and the steady-state success flag is ignored (violated parts)."
  },
  {
   "property": "C90",
   "status": "proved",
   "theorems": [
    "GE.C90_compile_transparent",
    "GE.C90_lru",
    "GE.C90_history"
   ],
   "note": "Graph construction and compilation are arbitrary functions of their inputs; in-place modification of cached graphs by compile is not modelled."
  },
  {
   "property": "C99",
   "status": "proved",
   "theorems": [
    "GE.C99_nesting",
    "GE.C99_reassembles",
    "GE.C99_contains"
   ],
   "note": "pytensor primitives (concatenate, atleast_Nd) are modelled by their definitions on real arrays."
  },
  {
   "property": "C100",
   "status": "partial",
   "theorems": [
    "GE.C100_transpose",
    "GE.C100_split",
    "GE.C100_block_diag_partial",
    "GE.C100_block_diag_violated",
    "GE.C100_anywhere"
   ],
   "note": "Transpose and split rewrites are proved to preserve the value at any place of any graph. The block-diagonal rewrite is proved under the hypothesis that blocks standing in the same grid column have the same width (C100_block_diag_partial); the code does not check this and C100_block_diag_violated shows a valid 2x3 graph turned into a 2x4 one. Static type information is assumed sound (Static.Sound)."
  },
  {
   "property": "C98",
   "status": "partial",
   "theorems": [
    "GE.C98_bk_values",
    "GE.C98_bk_growth",
    "GE.C98_regularised",
    "GE.C98_fixed_eps_violated",
    "GE.C98_sensitivity_violated",
    "GE.C98_values",
    "GE.C98_vjp"
   ],
   "note": "Values, gradient, symbolic eigenvalues, their meaning as growth factors and correctness of the count for all sufficiently small eps are proved. Two parts are refuted: with the fixed eps = 1e-8 the count can be wrong for eigenvalues within about 1e-8 of the unit circle (C98_fixed_eps_violated), and eigenvalue_sensitivity differentiates at a fixed steady state (C98_sensitivity_violated). LAPACK's eig enters as a contract (EigOracle), shown satisfiable for every real matrix."
  },
  {
   "property": "C101",
   "status": "proved",
   "theorems": [
    "GE.C101_meaning",
    "GE.C101_names",
    "GE.C101_env_exists",
    "GE.C101_clashes"
   ],
   "note": "sympy's canonical form enters as a hypothesis (no reciprocal of a reciprocal, fraction or one-factor product); the order of terms and factors is sympy's and arbitrary here. The text is modelled on tokens."
  },
  {
   "property": "C102",
   "status": "partial",
   "theorems": [
    "GE.C102_lines",
    "GE.C102_declared",
    "GE.C102_bare_keyword_violated"
   ],
   "note": "Proved for non-empty lists whose names fit on a line; violated for empty lists and for a first name that does not fit (a bare keyword statement is written)."
  },
  {
   "property": "C103",
   "status": "partial",
   "theorems": [
    "GE.C103_analytic",
    "GE.C103_numeric",
    "GE.C103_closed_partial",
    "GE.C103_undeclared_violated",
    "GE.C103_dangling_violated"
   ],
   "note": "Residuals proved equal for both branches. Closedness proved when equations and closed forms use free parameters only; violated for deterministic/calibrated parameters and for closed forms mentioning other steady-state values."
  },
  {
   "property": "C104",
   "status": "partial",
   "theorems": [
    "GE.C104_analytic",
    "GE.C104_numeric_partial",
    "GE.C104_calibrated_violated"
   ],
   "note": "Analytic branch proved relative to sp.cse's contract; initval values are rounded to 3 decimals; violated (AttributeError) with calibrated parameters."
  },
  {
   "property": "C105",
   "status": "partial",
   "theorems": [
    "GE.C105_values_partial",
    "GE.C105_rounding_violated",
    "GE.C105_shock_std_violated"
   ],
   "note": "Values are rounded to three decimals (violated for small values), shock standard deviations are always 0.01 (violated)."
  },
  {
   "property": "C106",
   "status": "proved",
   "theorems": [
    "GE.C106_reading",
    "GE.C106_unique",
    "GE.C106_layout",
    "GE.C106_lines",
    "GE.C106_comment"
   ],
   "note": "Model: Model/Lexer.lean; spec: Model/GcnSpec.lean. ASCII letters and digits; which error a rejected text gets is not modelled."
  },
  {
   "property": "C107",
   "status": "partial",
   "theorems": [
    "GE.C107_grammar",
    "GE.C107_parse",
    "GE.C107_unique",
    "GE.C107_special_first",
    "GE.C107_minus_power",
    "GE.C107_names",
    "GE.C107_prior_prefix_violated",
    "GE.C107_expressions",
    "GE.C107_expressions_unique"
   ],
   "note": "Model: Model/Grammar.lean (recursive descent with fuel; acceptance = some fuel suffices); spec: Model/GrammarSpec.lean (inductive grammar). C107_grammar/parse are equivalences, both directions for all texts. C107_prior_prefix_violated: `delta = Beta_bar / 2;` in calibration is rejected (pp.one_of without word boundary). Simplified: layout between a sign and its digits and numbers like .5e3 accepted in priors; words of an option key joined by one space; error messages not modelled."
  },
  {
   "property": "C108",
   "status": "partial",
   "theorems": [
    "GE.C108_print_parse_partial",
    "GE.C108_tryreduce_violated"
   ],
   "note": "Holds for printable models without tryreduce (C108_print_parse_partial; Printable is a decidable-in-spirit list of naming and number conditions in Model/PrintSpec.lean, satisfied by every model parse_gcn returns except for expressions outside Expr.Stable and calibration names prefixed by a distribution). For models with a tryreduce list the claim is false: C108_tryreduce_violated."
  },
  {
   "property": "C109",
   "status": "partial",
   "theorems": [
    "GE.C109_carried",
    "GE.C109_copy",
    "GE.C109_plain",
    "GE.C109_separator_violated",
    "GE.C109_shown",
    "GE.C109_moved",
    "GE.C109_context",
    "GE.C109_moved_violated"
   ],
   "note": "Proved for texts without the character '|' (and suggestions without ','). Fails when the offending text contains the separator (C109_separator_violated), for every semantic error moved (TypeError) and a moved grammar error forgets expected/found (C109_moved_violated). Which position pyparsing reports is not modelled."
  },
  {
   "property": "C110",
   "status": "partial",
   "theorems": [
    "GE.C110_location",
    "GE.C110_line",
    "GE.C110_span",
    "GE.C110_parameter",
    "GE.C110_variable",
    "GE.C110_variable_violated",
    "GE.C110_tab_violated",
    "GE.C110_tab_column",
    "GE.C110_quotes",
    "GE.C110_caret"
   ],
   "note": "Proved for every tab-free text and position; line and source line for every text. Fails: columns behind tabs (C110_tab_violated), end column of variables with a date other than [] (C110_variable_violated). '\\r', '\\f' and other breaks splitlines knows are not modelled."
  },
  {
   "property": "C111",
   "status": "partial",
   "theorems": [
    "GE.C111_context",
    "GE.C111_aligned",
    "GE.C111_aligned_violated",
    "GE.C111_str",
    "GE.C111_expected"
   ],
   "note": "Context lines and order proved for every error and source; alignment of the carets up to line 9999 and proved to fail from line 10000 on (C111_aligned_violated). Colours off."
  },
  {
   "property": "C112",
   "status": "partial",
   "theorems": [
    "GE.C112_written",
    "GE.C112_complete",
    "GE.C112_stationary",
    "GE.C112_solutions",
    "GE.C112_stationary_defs",
    "GE.C112_solutions_defs"
   ],
   "note": "C112_written: all files whose model blocks have distinct names and whose definitions are dated t-1..t+1, along paths on which the definitions hold. C112_complete: additionally no controls and no variable named like an auxiliary y__lagK / y__leadK. C112_solutions / C112_solutions_defs: files whose blocks are plain, Bellman or one-period problems (controls dated t or t-1; with or without definitions, defined variables moving with the controls), variables dated t-1..t+1: solutions of the loaded model are exactly the paths where the written equations hold and the problems are stationary. C112_stationary / C112_stationary_defs: also the infinite horizon. simplify_blocks=True is C125. Missing: objectives that are neither V[] = u + beta*E[][V[1]] nor about one period, definitions that use other definitions at other dates, deeper dates, functions outside their domains."
  },
  {
   "property": "C113",
   "status": "partial",
   "theorems": [
    "GE.C113_layout",
    "GE.C113_disjoint",
    "GE.C113_centred",
    "GE.C113_empty_violated",
    "GE.C113_ticks"
   ],
   "note": "C113_layout, _disjoint, _centred and _ticks prove the layout for all sizes; C113_empty_violated shows the failure for no panels."
  },
  {
   "property": "C114",
   "status": "partial",
   "theorems": [
    "GE.C114_corner_all",
    "GE.C114_irf",
    "GE.C114_styles",
    "GE.C114_styles_violated",
    "GE.C114_simulation",
    "GE.C114_priors_partial",
    "GE.C114_priors_violated",
    "GE.C114_marks_partial",
    "GE.C114_marks_violated",
    "GE.C114_corner_partial",
    "GE.C114_corner_violated",
    "GE.C114_kalman_partial",
    "GE.C114_kalman_violated"
   ],
   "note": "C114_irf is an exact characterisation of plot_irf; the _partial and _violated theorems state where the other figures show something else than asked for."
  },
  {
   "property": "C115",
   "status": "partial",
   "theorems": [
    "GE.C115_filter",
    "GE.C115_drawn",
    "GE.C115_count_partial",
    "GE.C115_count_violated",
    "GE.C115_limits",
    "GE.C115_arrows"
   ],
   "note": "C115_filter, _drawn, _limits, _arrows hold for all inputs; C115_count_partial / C115_count_violated: modulus ten and NaN are neither drawn nor counted."
  },
  {
   "property": "C116",
   "status": "proved",
   "theorems": [
    "GE.C116_summary",
    "GE.C116_scatter",
    "GE.C116_density",
    "GE.C116_densities"
   ],
   "note": "C116_summary, C116_scatter, C116_density; the labels are those of the solvability check (FailStep)."
  },
  {
   "property": "C117",
   "status": "partial",
   "theorems": [
    "GE.C117_accepts",
    "GE.C117_matrices",
    "GE.C117_steady_state",
    "GE.C117_analytic_violated"
   ],
   "note": "Matrices, acceptance and steady state proved for closed models (ClosedModel). Violated when a declared value mentions another variable found by propagation: it stays in the matrices (C117_analytic_violated). rewrite_pregrad and pytensor compilation not modelled."
  },
  {
   "property": "C118",
   "status": "partial",
   "theorems": [
    "GE.C118_fixed",
    "GE.C118_flag",
    "GE.C118_automatic",
    "GE.C118_consistent",
    "GE.C118_order_violated",
    "GE.C118_flag_last_only",
    "GE.C118_split",
    "GE.C118_kept",
    "GE.C118_decomposition"
   ],
   "note": "Exact arithmetic. Violated: roots closer to 1 than realsmall are counted depending on their order (C118_order_violated). Finding: the flag looks at the last pair only (as documented), unlike gensys itself (C118_flag_last_only)."
  },
  {
   "property": "C119",
   "status": "proved",
   "theorems": [
    "GE.C119_syntactic",
    "GE.C119_forward",
    "GE.C119_subset",
    "GE.C119_lead_idx",
    "GE.C119_bk_count"
   ],
   "note": "The caches on the Model object are not modelled (equations and default parameters do not change)."
  },
  {
   "property": "C120",
   "status": "partial",
   "theorems": [
    "GE.C120_numbers",
    "GE.C120_numbers_only",
    "GE.C120_formulas",
    "GE.C120_calibrating",
    "GE.C120_shocks",
    "GE.C120_tryreduce",
    "GE.C120_prior",
    "GE.C120_shock_dists",
    "GE.C120_shock_dists_violated",
    "GE.C120_accepted",
    "GE.C120_parse_result"
   ],
   "note": "Proved for every GCN text: free parameters, deterministic parameters, calibrating equations, shocks, tryreduce list, what PreliZ is asked to build for each prior (PreliZ itself is an uninterpreted predicate saying which calls succeed), and Normal shocks with named arguments. Violated by the code: a shock distribution with numbers only, or not Normal, is dropped without a message (C120_shock_dists_violated)."
  },
  {
   "property": "C121",
   "status": "partial",
   "theorems": [
    "GE.C121_residual",
    "GE.C121_jacobian",
    "GE.C121_path",
    "GE.C121_stacked_jacobian",
    "GE.C121_compiles",
    "GE.C121_names",
    "GE.C121_unsolved",
    "GE.C121_calibrated_violated",
    "GE.C121_lagged_shock_violated"
   ],
   "note": "Proved for shocks dated in the current period, at points where the equations are smooth: residual, Jacobian, stacked path and stacked Jacobian, exact success condition, names, and the list in the error. Violated by the code: calibrated parameters in equations make compilation fail (C121_calibrated_violated); a lagged shock is read as a current one (C121_lagged_shock_violated)."
  },
  {
   "property": "C123",
   "status": "partial",
   "theorems": [
    "GE.C123_residual",
    "GE.C123_jacobian",
    "GE.C123_root_refuses",
    "GE.C123_error",
    "GE.C123_gradient",
    "GE.C123_hessian",
    "GE.C123_hessp",
    "GE.C123_minimize_refuses",
    "GE.C123_flags",
    "GE.C123_use_jac_violated",
    "GE.C123_minimize_setup",
    "GE.C123_default_method_violated",
    "GE.C123_budget",
    "GE.C123_options_violated",
    "GE.C123_l2_violated",
    "GE.C123_postprocess",
    "GE.C123_postprocess_violated",
    "GE.C123_root_setup"
   ],
   "note": "Proved for the residual, error, Jacobian, gradient, Hessian and Hessian-vector product, for the refusals and for start, method, tolerance, budget and bounds. Violated by the code (proved): use_jac=False still passes the gradient unless use_hessp=False too; the documented default method trust-krylov is really trust-ncg; maxfev/maxiter given inside options is overwritten by 5000; the l2-norm gradient is NaN at an exact steady state; the gradient judged after root without use_jac is identically zero. Not modelled: jitter of the start, further keywords that are passed through, floating point."
  },
  {
   "property": "C124",
   "status": "partial",
   "theorems": [
    "GE.C124_names",
    "GE.C124_counts",
    "GE.C124_eliminated",
    "GE.C124_text",
    "GE.C124_steady_state",
    "GE.C124_square",
    "GE.C124_priors_violated"
   ],
   "note": "Proved for the counts, the eliminated names, the steady-state values, the wrapping of names and the warning. Violated (C124_priors_violated): the number of parameters with priors is the number of priors, so a prior on a name that is no parameter gives '1 / 0 has a defined prior'."
  },
  {
   "property": "C122",
   "status": "partial",
   "theorems": [
    "GE.C122_same_draw",
    "GE.C122_missing",
    "GE.C122_accepts",
    "GE.C122_unchanged",
    "GE.C122_checks",
    "GE.C122_defaults_violated",
    "GE.C122_in_place_violated",
    "GE.C122_range_violated"
   ],
   "note": "Proved: parameters and data are of the same draw, columns, rows and number of missing values, when the call is accepted, what is left behind, which checks are in the sampled model. Violated: the default keyword arguments are discarded and could not be passed on (C122_defaults_violated); nothing is modified in place although the documentation says so (C122_in_place_violated); fractions outside [0, 1] are not always refused (C122_range_violated)."
  },
  {
   "property": "C125",
   "status": "partial",
   "theorems": [
    "GE.C125_same_calibration",
    "GE.C125_kept",
    "GE.C125_extends",
    "GE.C125_file"
   ],
   "note": "Proved for eliminations of the announced kind (multiplier replaced by a variable of the same date or a constant), generated multipliers at dates t-1..t+1 and in one block only. Without the first condition the claim is false of the code: C50_log_utility_violated and C50_offset_violated exhibit eliminations that change the solutions. sympy's solver, evaluation and set order are oracles constrained by SimpOps.Lawful."
  },
  {
   "property": "C126",
   "status": "partial",
   "theorems": [
    "GE.C126_plain",
    "GE.C126_characters",
    "GE.C126_text",
    "GE.C126_aligned",
    "GE.C126_place",
    "GE.C126_errors",
    "GE.C126_break_violated",
    "GE.C126_tab_violated"
   ],
   "note": "The whole text is proved (message, arrow, rows, caret row, note; plain message without source or with a place outside it), and that carets lie exactly under the offending name for texts without tabs before it and with only newline breaks. C126_tab_violated and C126_break_violated prove the claim false behind tabs and after other line breaks that str.splitlines honours (form feed, carriage return...). Which place is recorded (C126_place) and that the three loading errors carry it (C126_errors) are proved. Dates other than X[] in calibrating equations are C110."
  },
  {
   "property": "C127",
   "status": "partial",
   "theorems": [
    "GE.C127_equation",
    "GE.C127_block",
    "GE.C127_model_partial",
    "GE.C127_model_violated",
    "GE.C127_arrow_violated",
    "GE.C127_calibration_variable",
    "GE.C127_calibration",
    "GE.C127_variables_partial",
    "GE.C127_variables_violated"
   ],
   "note": "Equations, blocks, metadata, calibration dictionaries and shocks are proved in full. Models: proved for distinct block names; C127_model_violated: of two blocks of the same name only the last is left. Variables: proved to be exactly the controls and the variables alone on a left-hand side; C127_variables_violated: variables occurring only inside expressions are missing. C127_arrow_violated: a converted calibrating equation, read as an equation, is not the condition written (it equates the parameter with the residual). Not modelled: equations sympy evaluates to booleans, the text of left-hand sides that are no symbol."
  },
  {
   "property": "C128",
   "status": "partial",
   "theorems": [
    "GE.C128_figure_partial",
    "GE.C128_apart",
    "GE.C128_legend",
    "GE.C128_refused",
    "GE.C128_lags_violated",
    "GE.C128_dims_violated",
    "GE.C128_cols_violated",
    "GE.C128_reference_violated"
   ],
   "note": "Proved for models with the same lags and name of the variable dimension (C128_figure_partial), with offsets that keep points apart (C128_apart), the legend and the refusals. C128_lags_violated: models with other lags are drawn at the first model's lags. C128_dims_violated: models with differently named dimensions cannot be drawn together. C128_cols_violated: n_cols=None raises TypeError. C128_reference_violated: the legend announces data no panel shows. Not modelled: how the intervals (HDI) are computed, line styles, sizes."
  },
  {
   "property": "C129",
   "status": "partial",
   "theorems": [
    "GE.C129_covariance",
    "GE.C129_heatmap_violated",
    "GE.C129_heatmap_labels",
    "GE.C129_matrix",
    "GE.C129_solvability",
    "GE.C129_parameters_partial",
    "GE.C129_parameters_violated",
    "GE.C129_success_violated",
    "GE.C129_timeseries",
    "GE.C129_sensitivity_partial",
    "GE.C129_sensitivity_default",
    "GE.C129_sensitivity_violated",
    "GE.C129_shock_legend",
    "GE.C129_scenario_legend_partial",
    "GE.C129_scenario_legend_violated"
   ],
   "note": "Covariance heat maps, estimated matrices, pair plots, time series and shock legends are proved in full; which parameters count as varying is proved for draws apart by more than the threshold. Violated: C129_heatmap_violated (a non-square table is refused: numbers of ticks exchanged), C129_parameters_violated (parameters varying only below 1e-9 are taken for constant), C129_success_violated (a parameter called success is never shown), C129_sensitivity_violated (precomputed sensitivities at other values), C129_scenario_legend_violated (empty first scenario name: no legend). Not modelled: densities, colours, number formats, explicit thresholds of annotate_heatmap."
  },
  {
   "property": "C130",
   "status": "proved",
   "theorems": [
    "GE.C130_first_order",
    "GE.C130_residual",
    "GE.C130_irf",
    "GE.C130_paths_exist",
    "GE.C130_written"
   ],
   "note": "C130_first_order: the matrices of linearize_model are the derivative of the equations along any scaled deviation; C130_residual: for any solver; C130_irf: loaded equations for exact solvers; C130_written: equations as written in the file; C130_paths_exist: such paths exist. Hypotheses: variables have different names and are not shocks, equations smooth and zero at the steady state, no lead hidden by the gensys tolerance, and C = 0 when the model is declared backward looking; for dates deeper than one period the auxiliary variables of the path must be what they stand for (ShiftsHold). Example: a one-equation nonlinear file, from text to responses."
  },
  {
   "property": "C131",
   "status": "partial",
   "theorems": [
    "GE.C131_recorded",
    "GE.C131_values_to_float",
    "GE.C131_float_to_values",
    "GE.C131_float_roundtrip",
    "GE.C131_values_inplace",
    "GE.C131_sort_strings",
    "GE.C131_sort_inplace",
    "GE.C131_sort_partial",
    "GE.C131_sort_deep_violated",
    "GE.C131_pickle",
    "GE.C131_pickle_converts",
    "GE.C131_success_lost_violated"
   ],
   "note": "Value conversions and pickling hold in full. Sorting symbols holds for dates t-1, t, t+1 and ss; deeper dates become parameters (C131_sort_deep_violated). copy() and to_string() of a SteadyStateResults lose the class and the success flag (C131_success_lost_violated). float(sp.Float(x)) = x is a hypothesis of the round trip; sorting symbols in place is not stated."
  },
  {
   "property": "C132",
   "status": "proved",
   "theorems": [
    "GE.C132_jacobian",
    "GE.C132_guess_shape",
    "GE.C132_residuals",
    "GE.C132_verdict",
    "GE.C132_written",
    "GE.C132_default_improves",
    "GE.C132_solved_guess"
   ],
   "note": "Whole run, composed from C30, C35, C57, C58, C121 and the reading of the file: residual rows of the equations as written (C132_residuals, C132_written), the verdict (C132_verdict), descent with the default solver (C132_default_improves), solved guesses (C132_solved_guess), the reported matrix is the matrix of derivatives up to the first-period sparsity pattern (C132_jacobian), guesses of the wrong shape are refused (C132_guess_shape). Exact reals; for dates deeper than one period the auxiliary variables of the path must be what they stand for (ShiftsHold). The steady state is a function of the parameters (C71, C83)."
  },
  {
   "property": "C133",
   "status": "partial",
   "theorems": [
    "GE.C133_equations",
    "GE.C133_written_partial",
    "GE.C133_known"
   ],
   "note": "C133_equations (the steady-state system is the file's equations at rest, as written) and C133_known (all variables known or fixed: success implies every written equation holds at every date up to 1e-8) are complete; C133_written_partial has the two loopholes of C83 (the optimizer's own verdict is believed, equations without unknowns are dropped), both shown real by C83_optimizer_violated and C83_dropped_violated. For dates deeper than one period the auxiliary variables rest with the variables they stand for (ShiftsHold)."
  },
  {
   "property": "C134",
   "status": "partial",
   "theorems": [
    "GE.C134_trust_regions",
    "GE.C134_foresight_calls",
    "GE.C134_root_calls_partial",
    "GE.C134_solve_perfect_foresight",
    "GE.C134_stale_violated",
    "GE.C134_same_call",
    "GE.C134_same_call_radius",
    "GE.C134_already_solved",
    "GE.C134_no_trials",
    "GE.C134_history_violated"
   ],
   "note": "Trust-region and damping solvers: proved for every history. Armijo line searches: every solve_perfect_foresight call, and sparse_root calls before the object has been passed to solve_perfect_foresight. C134_stale_violated: solve_perfect_foresight leaves its merit function in the passed object, so later sparse_root calls fail or raise. C134_history_violated: the non-monotone line search keeps the merits of earlier calls and accepts steps a new object refuses."
  },
  {
   "property": "C135",
   "status": "proved",
   "theorems": [
    "GE.C135_lines",
    "GE.C135_solutions"
   ],
   "note": "text -> lexer/grammar model -> loader -> exported block -> Dynare grammar. sympy's canonical form of the loaded equations enters as hypothesis SameOn (same values at every date); steady state references either all in closed form or numbers (the mixed/undeclared cases are the C103 *_violated theorems)."
  },
  {
   "property": "C136",
   "status": "partial",
   "theorems": [
    "GE.C136_rate",
    "GE.C136_written",
    "GE.C136_backward_violated"
   ],
   "note": "Composition of C117, C91/C92, C36 and C130 from the file text. The kernels giving T are arbitrary (the bound is in terms of the residual the code itself checks). Violated for backward_direct on a model with leads: nothing refuses it, the residual of T can be zero while R is wrong (C136_backward_violated)."
  },
  {
   "property": "C137",
   "status": "partial",
   "theorems": [
    "GE.C137_root",
    "GE.C137_count",
    "GE.C137_verdict",
    "GE.C137_solved",
    "GE.C137_equations",
    "GE.C137_written",
    "GE.C137_singular_violated"
   ],
   "note": "C137_root, C137_count, C137_verdict, C137_solved and, down to the file, C137_equations, C137_written. C137_singular_violated: the model 0 = 0, for which every number is a root, is reported as satisfying the condition (0/0 is not counted as unstable). Exact reals; roots within the tolerance of the unit circle are excluded (Separated); leads above the tolerance (CleanLeads)."
  },
  {
   "property": "C138",
   "status": "proved",
   "theorems": [
    "GE.C138_equilibrium",
    "GE.C138_moments",
    "GE.C138_solve_model"
   ],
   "note": "C138_equilibrium: the iff for gensys' T and R; C138_solve_model: through solve_model; C138_moments: stationary covariance (uniqueness, limit, stationarity) and autocovariances. Random variables are elements of a real vector space with a symmetric covariance form whose null vectors are zero (second-order theory); conditional expectations are self-adjoint projections with the tower property. gensys' exactness assumptions (exact QZ and SVD, CleanLeads) as in C68; the Lyapunov solver is assumed exact (LyapSpec, as in C47). Example: a one-variable model with a lead, i.i.d. unit shocks, variance 9/7."
  },
  {
   "property": "C139",
   "status": "proved",
   "theorems": [
    "GE.C139_table",
    "GE.C139_sorting",
    "GE.C139_reordered",
    "GE.C139_writing_order",
    "GE.C139_message",
    "GE.C139_verdict",
    "GE.C139_summary"
   ],
   "note": "C139_table, C139_sorting, C139_reordered (matrices), C139_writing_order (variable and equation lists through linearize_model), C139_message, C139_summary. QZ exact; the reordering theorems assume the roots are separated from the unit circle by the tolerance, CleanLeads and a nonzero characteristic polynomial (as C137). NumPy's argsort is any order sorted by modulus (no NaN). Example: a two-variable model and its swapped version."
  },
  {
   "property": "C140",
   "status": "proved",
   "theorems": [
    "GE.C140_solution",
    "GE.C140_solvable",
    "GE.C140_other_solvers",
    "GE.C140_covariance",
    "GE.C140_irf"
   ],
   "note": "C140_solution: gensys, entries of T and R by name. C140_solvable: gensys solves one exactly when it solves the other (no coincident zeros reported for either). C140_other_solvers: cycle reduction and the backward solver, including failures. C140_covariance, C140_irf: the reported numbers by name. Exact arithmetic; forward columns below the tolerance are zero (CleanLeads)."
  },
  {
   "property": "C141",
   "status": "proved",
   "theorems": [
    "GE.C141_solution",
    "GE.C141_solvable",
    "GE.C141_irf",
    "GE.C141_covariance"
   ],
   "note": "C141_solution: gensys, T and R in units of levels. C141_solvable (also for C142): gensys solves one exactly when it solves the other, when no coincident zeros are reported for either. C141_irf, C141_covariance: the reported numbers. Exact arithmetic; forward columns below the tolerance are zero in both versions (CleanLeads); gensys only: cycle reduction stops on a norm that depends on units."
  },
  {
   "property": "C142",
   "status": "proved",
   "theorems": [
    "GE.C142_solution",
    "GE.C142_multiplied",
    "GE.C142_exchanged",
    "GE.C142_logs",
    "GE.C142_equivalence"
   ],
   "note": "C142_solution: equations with proportional derivatives at the steady state give the same T and R under gensys; C142_multiplied, C142_exchanged, C142_logs: the rewritings promised are of that kind; C142_equivalence: in any combination; solvability is C141_solvable. Exact arithmetic, CleanLeads for both versions."
  },
  {
   "property": "C143",
   "status": "proved",
   "theorems": [
    "GE.C143_covariance",
    "GE.C143_correlations",
    "GE.C143_decay",
    "GE.C143_responses",
    "GE.C143_solved"
   ],
   "note": "C143_covariance, C143_correlations, C143_decay, C143_responses; C143_solved: gensys solutions are stable in the sense used. A covariance matrix given by the user is assumed to be one (the code does not check it). Variables without variance: numpy divides by zero (NaN), real division gives 0. Exact arithmetic."
  },
  {
   "property": "C144",
   "status": "proved",
   "theorems": [
    "GE.C144_perfect_foresight",
    "GE.C144_simulate"
   ],
   "note": "C144_perfect_foresight: any solver object, both forms of the default guess; the equations need only hold up to 1e-10 at rest. C144_simulate: all simulated values are zero. Responses to zero shocks: C37_zero."
  },
  {
   "property": "C145",
   "status": "partial",
   "theorems": [
    "GE.C145_semicolon",
    "GE.C145_unclosed",
    "GE.C145_parenthesis",
    "GE.C145_component",
    "GE.C145_annotation",
    "GE.C145_semicolon_violated",
    "GE.C145_quoted_violated",
    "GE.C145_expression",
    "GE.C145_expression_code",
    "GE.C145_expression_violated",
    "GE.C145_index_violated",
    "GE.C145_operator_violated",
    "GE.C145_catalog",
    "GE.C145_distinct",
    "GE.C145_code",
    "GE.C145_report"
   ],
   "note": "Proved: the catalog answers exactly for its 24 codes, with distinct titles and help texts that list name, title, explanation, causes and fixes (C145_catalog, C145_distinct); the full decision which code an error of pyparsing's own gets (C145_code) and what the report then is (C145_report, C145_annotation); a missing semicolon, an unclosed brace or parenthesis and a component after an unfinished statement are reported as such (C145_semicolon, C145_unclosed, C145_parenthesis, C145_component); codes of parse_expression (C145_expression, C145_expression_code). False of the code: an expected ';' before '(' is reported as unbalanced parentheses; the offending word is quoted twice; parse_expression shows the internal separators and code of the failure in its message, reports a wrong index of a variable named like E008 as an empty call, and never gives its message about a trailing operator. What pyparsing reports for a text is an input."
  },
  {
   "property": "C146",
   "status": "proved",
   "theorems": [
    "GE.C146_rule",
    "GE.C146_impulse",
    "GE.C146_backward",
    "GE.C146_matrices"
   ],
   "note": "C146_rule: any start, a shock in the first period, any T, R solving the two matrix equations; C146_impulse: the same in terms of simulate; C146_backward: C = 0, shocks in every period, any terminal condition; C146_matrices: linearize_model returns A, B, C, D. LinearModel says linear on every path; hypotheses met by x = d + a x[-1] + c x[1] + e."
  },
  {
   "property": "C147",
   "status": "partial",
   "theorems": [
    "GE.C147_parsed",
    "GE.C147_expression",
    "GE.C147_distinct",
    "GE.C147_equation",
    "GE.C147_multiplier_violated",
    "GE.C147_distribution",
    "GE.C147_collect",
    "GE.C147_equations",
    "GE.C147_variables",
    "GE.C147_parameters",
    "GE.C147_calibration_violated",
    "GE.C147_get_block",
    "GE.C147_optimization"
   ],
   "note": "Fails as documented for two queries: C147_multiplier_violated (str() of an equation with a multiplier is not an equation) and C147_calibration_violated (all_parameters leaves out the calibration). The rest is proved in full. A set is a list without repetition; numbers that are not whole print as any text of that value, str of a float being one."
  },
  {
   "property": "C148",
   "status": "proved",
   "theorems": [
    "GE.C148_layout",
    "GE.C148_equations",
    "GE.C148_shocks",
    "GE.C148_order",
    "GE.C148_default_layout",
    "GE.C148_default",
    "GE.C148_priors",
    "GE.C148_solution",
    "GE.C148_other_solvers",
    "GE.C148_default_solution",
    "GE.C148_default_other_solvers"
   ],
   "note": "C148_layout (texts), C148_order (blocks permuted: success, blocks, equations, dictionaries; variables and names to reduce as lists when no two variables share a name), C148_solution, C148_other_solvers (policy matrices by name, from C140: exact arithmetic, and for gensys zero forward columns below the tolerance), C148_equations (solutions, Includes in Model/RewriteSpec), C148_shocks. C148_order asks that calibration statements set parameters (ParametersOnly) and that no two model blocks share a name, C148_equations that definitions are dated near t and model blocks have different names. The order of blocks does matter for a prior used by a shock before it is declared (C55_later_prior_violated), so C148_priors (priors and shock distributions, looked up by name) asks that the priors a shock names stand in its block (PriorsAtHand), and with two steady-state blocks the first counts (C54_first_block_only). C148_default, C148_default_layout C148_default_solution and C148_default_other_solvers are the same about load_gcn_file, for any solver and any order in which sets are iterated; C148_equations is about loading without simplification (C125 says what simplification keeps)."
  },
  {
   "property": "C149",
   "status": "proved",
   "theorems": [
    "GE.C149_same",
    "GE.C149_default",
    "GE.C149_priors",
    "GE.C149_shock_priors_violated",
    "GE.C149_tryreduce_violated",
    "GE.C149_tags_violated"
   ],
   "note": "C149_same (without simplification), C149_default (with it), C149_priors. False of the code without the conditions: C149_tags_violated (@exclude is not printed: one equation more), C149_shock_priors_violated (the printed text never has priors on shocks), C149_tryreduce_violated (never loads). OneExtra is a limit of the model: it compares assumptions as ordered lists, and the printed text may keep another order. Numbers and shapes of expressions: Printable (Model/PrintSpec), as in C108."
  }
 ]
}