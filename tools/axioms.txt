'GE.C01_name_format' depends on axioms: [propext, Classical.choice, Quot.sound]
'GE.C01_name_injective' depends on axioms: [propext, Classical.choice, Quot.sound]
'GE.C01_safe_name_collision_with_operator_characters' does not depend on any axioms
'GE.C01_safe_name_injective' depends on axioms: [propext, Classical.choice, Quot.sound]
'GE.C02_backward_n' depends on axioms: [propext, Quot.sound]
'GE.C02_docstring_violated' depends on axioms: [propext]
'GE.C02_forward_n' depends on axioms: [propext, Quot.sound]
'GE.C02_inverse' depends on axioms: [propext, Quot.sound]
'GE.C02_set_t' depends on axioms: [propext]
'GE.C02_ss_roundtrip' depends on axioms: [propext, Quot.sound]
'GE.C02_ss_step_raises' depends on axioms: [propext]
'GE.C03_clash_loses_entry' depends on axioms: [propext]
'GE.C03_deep_index_lost' depends on axioms: [propext, Classical.choice, Quot.sound]
'GE.C03_inplace_roundtrip_partial' depends on axioms: [propext, Classical.choice, Quot.sound]
'GE.C03_key_string_roundtrip' depends on axioms: [propext, Classical.choice, Quot.sound]
'GE.C03_string_roundtrip_partial' depends on axioms: [propext, Classical.choice, Quot.sound]
'GE.C03_symbol_of_string' depends on axioms: [propext, Classical.choice, Quot.sound]
'GE.C04_constructor' depends on axioms: [propext, Quot.sound]
'GE.C04_one_kind_partial' depends on axioms: [propext, Classical.choice, Quot.sound]
'GE.C04_update_dict_mixes' depends on axioms: [propext]
'GE.C04_update_plain_mixes' depends on axioms: [propext]
'GE.C05_conversions_frame_partial' depends on axioms: [propext, Quot.sound]
'GE.C05_copy_shares_metadata' depends on axioms: [propext]
'GE.C05_or_mutates_left' depends on axioms: [propext]
'GE.C05_to_ss_mutates_receiver' depends on axioms: [propext]
'GE.C05_update_partial' depends on axioms: [propext, Classical.choice, Quot.sound]
'GE.C06_to_ss' depends on axioms: [propext, Classical.choice, Quot.sound]
'GE.C07_all_indices_near_partial' depends on axioms: [propext, Classical.choice, Quot.sound]
'GE.C07_calibration_not_expanded' depends on axioms: [propext, Quot.sound]
'GE.C08_clash_changes_meaning' depends on axioms: [propext, Classical.choice, Quot.sound]
'GE.C08_expanded_solution_solves_original' depends on axioms: [propext, Classical.choice, Quot.sound]
'GE.C08_model' depends on axioms: [propext, Classical.choice, Quot.sound]
'GE.C08_original_solution_extends' depends on axioms: [propext, Classical.choice, Quot.sound]
'GE.C09_idempotent' depends on axioms: [propext, Classical.choice, Quot.sound]
'GE.C09_other_fields_kept' depends on axioms: [propext]
'GE.C09_shallow_unchanged' depends on axioms: [propext, Quot.sound]
'GE.C100_anywhere' depends on axioms: [propext, Classical.choice, Quot.sound]
'GE.C100_block_diag_partial' depends on axioms: [propext, Classical.choice, Quot.sound]
'GE.C100_block_diag_violated' depends on axioms: [propext, Classical.choice, Quot.sound]
'GE.C100_split' depends on axioms: [propext, Classical.choice, Quot.sound]
'GE.C100_transpose' depends on axioms: [propext, Classical.choice, Quot.sound]
'GE.C101_clashes' depends on axioms: [propext, Classical.choice, Quot.sound]
'GE.C101_env_exists' depends on axioms: [propext, Classical.choice, Quot.sound]
'GE.C101_meaning' depends on axioms: [propext, Classical.choice, Quot.sound]
'GE.C101_names' depends on axioms: [propext, Classical.choice, Quot.sound]
'GE.C102_bare_keyword_violated' depends on axioms: [propext, Quot.sound]
'GE.C102_declared' depends on axioms: [propext, Classical.choice, Quot.sound]
'GE.C102_lines' depends on axioms: [propext, Classical.choice, Quot.sound]
'GE.C103_analytic' depends on axioms: [propext, Classical.choice, Quot.sound]
'GE.C103_closed_partial' depends on axioms: [propext, Classical.choice, Quot.sound]
'GE.C103_dangling_violated' depends on axioms: [propext, Classical.choice, Quot.sound]
'GE.C103_numeric' depends on axioms: [propext, Classical.choice, Quot.sound]
'GE.C103_undeclared_violated' depends on axioms: [propext, Classical.choice, Quot.sound]
'GE.C104_analytic' depends on axioms: [propext, Classical.choice, Quot.sound]
'GE.C104_calibrated_violated' depends on axioms: [propext, Classical.choice, Quot.sound]
'GE.C104_numeric_partial' depends on axioms: [propext, Classical.choice, Quot.sound]
'GE.C105_rounding_violated' depends on axioms: [propext, Classical.choice, Quot.sound]
'GE.C105_shock_std_violated' depends on axioms: [propext, Classical.choice, Quot.sound]
'GE.C105_values_partial' depends on axioms: [propext, Classical.choice, Quot.sound]
'GE.C106_comment' depends on axioms: [propext, Classical.choice, Quot.sound]
'GE.C106_layout' depends on axioms: [propext, Classical.choice, Quot.sound]
'GE.C106_lines' depends on axioms: [propext, Classical.choice, Quot.sound]
'GE.C106_reading' depends on axioms: [propext, Classical.choice, Quot.sound]
'GE.C106_unique' depends on axioms: [propext, Classical.choice, Quot.sound]
'GE.C107_expressions' depends on axioms: [propext, Quot.sound]
'GE.C107_expressions_unique' depends on axioms: [propext, Quot.sound]
'GE.C107_grammar' depends on axioms: [propext, Classical.choice, Quot.sound]
'GE.C107_minus_power' depends on axioms: [propext, Quot.sound]
'GE.C107_names' depends on axioms: [propext, Classical.choice, Quot.sound]
'GE.C107_parse' depends on axioms: [propext, Classical.choice, Quot.sound]
'GE.C107_prior_prefix_violated' depends on axioms: [propext, Classical.choice, Quot.sound]
'GE.C107_special_first' depends on axioms: [propext, Classical.choice, Quot.sound]
'GE.C107_unique' depends on axioms: [propext, Classical.choice, Quot.sound]
'GE.C108_print_parse_partial' depends on axioms: [propext, Classical.choice, Quot.sound]
'GE.C108_tryreduce_violated' depends on axioms: [propext, Classical.choice, Quot.sound]
'GE.C109_carried' depends on axioms: [propext, Classical.choice, Quot.sound]
'GE.C109_context' depends on axioms: [propext, Classical.choice, Quot.sound]
'GE.C109_copy' depends on axioms: [propext, Classical.choice, Quot.sound]
'GE.C109_moved' depends on axioms: [propext, Classical.choice, Quot.sound]
'GE.C109_moved_violated' depends on axioms: [propext, Classical.choice, Quot.sound]
'GE.C109_plain' depends on axioms: [propext, Classical.choice, Quot.sound]
'GE.C109_separator_violated' depends on axioms: [propext, Classical.choice, Quot.sound]
'GE.C109_shown' depends on axioms: [propext, Classical.choice, Quot.sound]
'GE.C10_block_stays_square_partial' depends on axioms: [propext, Classical.choice, Quot.sound]
'GE.C10_shared_lag_duplicates_identities' depends on axioms: [propext]
'GE.C110_caret' depends on axioms: [propext, Quot.sound]
'GE.C110_line' depends on axioms: [propext, Classical.choice, Quot.sound]
'GE.C110_location' depends on axioms: [propext, Classical.choice, Quot.sound]
'GE.C110_parameter' depends on axioms: [propext, Classical.choice, Quot.sound]
'GE.C110_quotes' depends on axioms: [propext, Classical.choice, Quot.sound]
'GE.C110_span' depends on axioms: [propext, Classical.choice, Quot.sound]
'GE.C110_tab_column' depends on axioms: [propext, Classical.choice, Quot.sound]
'GE.C110_tab_violated' depends on axioms: [propext, Quot.sound]
'GE.C110_variable' depends on axioms: [propext, Classical.choice, Quot.sound]
'GE.C110_variable_violated' depends on axioms: [propext, Classical.choice, Quot.sound]
'GE.C111_aligned' depends on axioms: [propext, Classical.choice, Quot.sound]
'GE.C111_aligned_violated' depends on axioms: [propext, Classical.choice, Quot.sound]
'GE.C111_context' depends on axioms: [propext, Classical.choice, Quot.sound]
'GE.C111_expected' depends on axioms: [propext, Classical.choice, Quot.sound]
'GE.C111_str' depends on axioms: [propext, Classical.choice, Quot.sound]
'GE.C112_complete' depends on axioms: [propext, Classical.choice, Quot.sound]
'GE.C112_solutions' depends on axioms: [propext, Classical.choice, Quot.sound]
'GE.C112_solutions_defs' depends on axioms: [propext, Classical.choice, Quot.sound]
'GE.C112_stationary' depends on axioms: [propext, Classical.choice, Quot.sound]
'GE.C112_stationary_defs' depends on axioms: [propext, Classical.choice, Quot.sound]
'GE.C112_written' depends on axioms: [propext, Classical.choice, Quot.sound]
'GE.C113_centred' depends on axioms: [propext, Classical.choice, Quot.sound]
'GE.C113_disjoint' depends on axioms: [propext, Classical.choice, Quot.sound]
'GE.C113_empty_violated' does not depend on any axioms
'GE.C113_layout' depends on axioms: [propext, Classical.choice, Quot.sound]
'GE.C113_ticks' depends on axioms: [propext, Classical.choice, Quot.sound]
'GE.C114_corner_all' depends on axioms: [propext, Quot.sound]
'GE.C114_corner_partial' depends on axioms: [propext, Quot.sound]
'GE.C114_corner_violated' depends on axioms: [propext]
'GE.C114_irf' depends on axioms: [propext, Classical.choice, Quot.sound]
'GE.C114_kalman_partial' depends on axioms: [propext, Classical.choice, Quot.sound]
'GE.C114_kalman_violated' depends on axioms: [propext, Classical.choice, Quot.sound]
'GE.C114_marks_partial' depends on axioms: [propext, Quot.sound]
'GE.C114_marks_violated' depends on axioms: [propext, Quot.sound]
'GE.C114_priors_partial' depends on axioms: [propext, Classical.choice, Quot.sound]
'GE.C114_priors_violated' depends on axioms: [propext, Classical.choice, Quot.sound]
'GE.C114_simulation' depends on axioms: [propext, Classical.choice, Quot.sound]
'GE.C114_styles' depends on axioms: [propext, Classical.choice, Quot.sound]
'GE.C114_styles_violated' depends on axioms: [propext, Classical.choice, Quot.sound]
'GE.C115_arrows' depends on axioms: [propext, Classical.choice, Quot.sound]
'GE.C115_count_partial' depends on axioms: [propext, Classical.choice, Quot.sound]
'GE.C115_count_violated' depends on axioms: [propext, Classical.choice, Quot.sound]
'GE.C115_drawn' depends on axioms: [propext, Classical.choice, Quot.sound]
'GE.C115_filter' depends on axioms: [propext, Classical.choice, Quot.sound]
'GE.C115_limits' depends on axioms: [propext, Classical.choice, Quot.sound]
'GE.C116_densities' depends on axioms: [propext, Classical.choice, Quot.sound]
'GE.C116_density' depends on axioms: [propext, Quot.sound]
'GE.C116_scatter' depends on axioms: [propext, Classical.choice, Quot.sound]
'GE.C116_summary' depends on axioms: [propext, Classical.choice, Quot.sound]
'GE.C117_accepts' depends on axioms: [propext, Classical.choice, Quot.sound]
'GE.C117_analytic_violated' depends on axioms: [propext, Classical.choice, Quot.sound]
'GE.C117_matrices' depends on axioms: [propext, Classical.choice, Quot.sound]
'GE.C117_steady_state' depends on axioms: [propext, Classical.choice, Quot.sound]
'GE.C118_automatic' depends on axioms: [propext, Classical.choice, Quot.sound]
'GE.C118_consistent' depends on axioms: [propext, Classical.choice, Quot.sound]
'GE.C118_decomposition' depends on axioms: [propext, Classical.choice, Quot.sound]
'GE.C118_fixed' depends on axioms: [propext, Classical.choice, Quot.sound]
'GE.C118_flag' depends on axioms: [propext, Classical.choice, Quot.sound]
'GE.C118_flag_last_only' depends on axioms: [propext, Classical.choice, Quot.sound]
'GE.C118_kept' depends on axioms: [propext, Classical.choice, Quot.sound]
'GE.C118_order_violated' depends on axioms: [propext, Classical.choice, Quot.sound]
'GE.C118_split' depends on axioms: [propext, Quot.sound]
'GE.C119_bk_count' depends on axioms: [propext, Classical.choice, Quot.sound]
'GE.C119_forward' depends on axioms: [propext, Classical.choice, Quot.sound]
'GE.C119_lead_idx' depends on axioms: [propext, Classical.choice, Quot.sound]
'GE.C119_subset' depends on axioms: [propext, Classical.choice, Quot.sound]
'GE.C119_syntactic' depends on axioms: [propext, Quot.sound]
'GE.C11_block_partial' depends on axioms: [propext]
'GE.C11_equation_partial' depends on axioms: [propext, Classical.choice, Quot.sound]
'GE.C11_same_meaning_partial' depends on axioms: [propext, Classical.choice, Quot.sound]
'GE.C11_same_tree_partial' depends on axioms: [propext, Classical.choice, Quot.sound]
'GE.C11_shock_prior_lost' depends on axioms: [propext]
'GE.C11_tags_lost' depends on axioms: [propext, Classical.choice, Quot.sound]
'GE.C11_tryreduce_unparseable' depends on axioms: [propext]
'GE.C11_violated' depends on axioms: [propext, Classical.choice, Quot.sound]
'GE.C11_violated_meaning' depends on axioms: [propext, Classical.choice, Quot.sound]
'GE.C120_accepted' depends on axioms: [propext, Classical.choice, Quot.sound]
'GE.C120_calibrating' depends on axioms: [propext, Classical.choice, Quot.sound]
'GE.C120_formulas' depends on axioms: [propext, Classical.choice, Quot.sound]
'GE.C120_numbers' depends on axioms: [propext, Classical.choice, Quot.sound]
'GE.C120_numbers_only' depends on axioms: [propext, Classical.choice, Quot.sound]
'GE.C120_parse_result' depends on axioms: [propext, Classical.choice, Quot.sound]
'GE.C120_prior' depends on axioms: [propext, Classical.choice, Quot.sound]
'GE.C120_shock_dists' depends on axioms: [propext, Classical.choice, Quot.sound]
'GE.C120_shock_dists_violated' depends on axioms: [propext, Classical.choice, Quot.sound]
'GE.C120_shocks' depends on axioms: [propext, Classical.choice, Quot.sound]
'GE.C120_tryreduce' depends on axioms: [propext, Classical.choice, Quot.sound]
'GE.C121_calibrated_violated' depends on axioms: [propext, Classical.choice, Quot.sound]
'GE.C121_compiles' depends on axioms: [propext, Classical.choice, Quot.sound]
'GE.C121_jacobian' depends on axioms: [propext, Classical.choice, Quot.sound]
'GE.C121_lagged_shock_violated' depends on axioms: [propext, Classical.choice, Quot.sound]
'GE.C121_names' depends on axioms: [propext, Classical.choice, Quot.sound]
'GE.C121_path' depends on axioms: [propext, Classical.choice, Quot.sound]
'GE.C121_residual' depends on axioms: [propext, Classical.choice, Quot.sound]
'GE.C121_stacked_jacobian' depends on axioms: [propext, Classical.choice, Quot.sound]
'GE.C121_unsolved' depends on axioms: [propext, Quot.sound]
'GE.C122_accepts' depends on axioms: [propext, Classical.choice, Quot.sound]
'GE.C122_checks' depends on axioms: [propext, Classical.choice, Quot.sound]
'GE.C122_defaults_violated' depends on axioms: [propext, Classical.choice, Quot.sound]
'GE.C122_in_place_violated' depends on axioms: [propext, Classical.choice, Quot.sound]
'GE.C122_missing' depends on axioms: [propext, Classical.choice, Quot.sound]
'GE.C122_range_violated' depends on axioms: [propext, Classical.choice, Quot.sound]
'GE.C122_same_draw' depends on axioms: [propext, Classical.choice, Quot.sound]
'GE.C122_unchanged' depends on axioms: [propext, Classical.choice, Quot.sound]
'GE.C123_budget' depends on axioms: [propext, Classical.choice, Quot.sound]
'GE.C123_default_method_violated' depends on axioms: [propext, Classical.choice, Quot.sound]
'GE.C123_error' depends on axioms: [propext, Classical.choice, Quot.sound]
'GE.C123_flags' depends on axioms: [propext, Classical.choice, Quot.sound]
'GE.C123_gradient' depends on axioms: [propext, Classical.choice, Quot.sound]
'GE.C123_hessian' depends on axioms: [propext, Classical.choice, Quot.sound]
'GE.C123_hessp' depends on axioms: [propext, Classical.choice, Quot.sound]
'GE.C123_jacobian' depends on axioms: [propext, Classical.choice, Quot.sound]
'GE.C123_l2_violated' depends on axioms: [propext, Classical.choice, Quot.sound]
'GE.C123_minimize_refuses' depends on axioms: [propext, Classical.choice, Quot.sound]
'GE.C123_minimize_setup' depends on axioms: [propext, Classical.choice, Quot.sound]
'GE.C123_options_violated' depends on axioms: [propext, Classical.choice, Quot.sound]
'GE.C123_postprocess' depends on axioms: [propext, Classical.choice, Quot.sound]
'GE.C123_postprocess_violated' depends on axioms: [propext, Classical.choice, Quot.sound]
'GE.C123_residual' depends on axioms: [propext, Classical.choice, Quot.sound]
'GE.C123_root_refuses' depends on axioms: [propext, Classical.choice, Quot.sound]
'GE.C123_root_setup' depends on axioms: [propext, Classical.choice, Quot.sound]
'GE.C123_use_jac_violated' depends on axioms: [propext, Classical.choice, Quot.sound]
'GE.C124_counts' depends on axioms: [propext, Classical.choice, Quot.sound]
'GE.C124_eliminated' depends on axioms: [propext, Classical.choice, Quot.sound]
'GE.C124_names' depends on axioms: [propext, Classical.choice, Quot.sound]
'GE.C124_priors_violated' depends on axioms: [propext, Classical.choice, Quot.sound]
'GE.C124_square' depends on axioms: [propext, Classical.choice, Quot.sound]
'GE.C124_steady_state' depends on axioms: [propext, Classical.choice, Quot.sound]
'GE.C124_text' depends on axioms: [propext, Classical.choice, Quot.sound]
'GE.C125_extends' depends on axioms: [propext, Classical.choice, Quot.sound]
'GE.C125_file' depends on axioms: [propext, Classical.choice, Quot.sound]
'GE.C125_kept' depends on axioms: [propext, Classical.choice, Quot.sound]
'GE.C125_same_calibration' depends on axioms: [propext, Classical.choice, Quot.sound]
'GE.C126_aligned' depends on axioms: [propext, Classical.choice, Quot.sound]
'GE.C126_break_violated' depends on axioms: [propext, Classical.choice, Quot.sound]
'GE.C126_characters' depends on axioms: [propext, Classical.choice, Quot.sound]
'GE.C126_errors' depends on axioms: [propext, Classical.choice, Quot.sound]
'GE.C126_place' depends on axioms: [propext, Classical.choice, Quot.sound]
'GE.C126_plain' depends on axioms: [propext, Classical.choice, Quot.sound]
'GE.C126_tab_violated' depends on axioms: [propext, Classical.choice, Quot.sound]
'GE.C126_text' depends on axioms: [propext, Classical.choice, Quot.sound]
'GE.C127_arrow_violated' depends on axioms: [propext, Classical.choice, Quot.sound]
'GE.C127_block' depends on axioms: [propext, Classical.choice, Quot.sound]
'GE.C127_calibration' depends on axioms: [propext, Classical.choice, Quot.sound]
'GE.C127_calibration_variable' depends on axioms: [propext, Classical.choice, Quot.sound]
'GE.C127_equation' depends on axioms: [propext, Classical.choice, Quot.sound]
'GE.C127_model_partial' depends on axioms: [propext, Classical.choice, Quot.sound]
'GE.C127_model_violated' depends on axioms: [propext, Classical.choice, Quot.sound]
'GE.C127_variables_partial' depends on axioms: [propext, Classical.choice, Quot.sound]
'GE.C127_variables_violated' depends on axioms: [propext, Classical.choice, Quot.sound]
'GE.C128_apart' depends on axioms: [propext, Classical.choice, Quot.sound]
'GE.C128_cols_violated' depends on axioms: [propext, Classical.choice, Quot.sound]
'GE.C128_dims_violated' depends on axioms: [propext, Classical.choice, Quot.sound]
'GE.C128_figure_partial' depends on axioms: [propext, Classical.choice, Quot.sound]
'GE.C128_lags_violated' depends on axioms: [propext, Classical.choice, Quot.sound]
'GE.C128_legend' depends on axioms: [propext, Classical.choice, Quot.sound]
'GE.C128_reference_violated' depends on axioms: [propext, Classical.choice, Quot.sound]
'GE.C128_refused' depends on axioms: [propext, Classical.choice, Quot.sound]
'GE.C129_covariance' depends on axioms: [propext, Classical.choice, Quot.sound]
'GE.C129_heatmap_labels' depends on axioms: [propext, Classical.choice, Quot.sound]
'GE.C129_heatmap_violated' depends on axioms: [propext, Classical.choice, Quot.sound]
'GE.C129_matrix' depends on axioms: [propext, Classical.choice, Quot.sound]
'GE.C129_parameters_partial' depends on axioms: [propext, Classical.choice, Quot.sound]
'GE.C129_parameters_violated' depends on axioms: [propext, Classical.choice, Quot.sound]
'GE.C129_scenario_legend_partial' depends on axioms: [propext, Classical.choice, Quot.sound]
'GE.C129_scenario_legend_violated' depends on axioms: [propext, Classical.choice, Quot.sound]
'GE.C129_sensitivity_default' depends on axioms: [propext, Classical.choice, Quot.sound]
'GE.C129_sensitivity_partial' depends on axioms: [propext, Classical.choice, Quot.sound]
'GE.C129_sensitivity_violated' depends on axioms: [propext, Classical.choice, Quot.sound]
'GE.C129_shock_legend' depends on axioms: [propext, Classical.choice, Quot.sound]
'GE.C129_solvability' depends on axioms: [propext, Classical.choice, Quot.sound]
'GE.C129_success_violated' depends on axioms: [propext, Classical.choice, Quot.sound]
'GE.C129_timeseries' depends on axioms: [propext, Classical.choice, Quot.sound]
'GE.C12_inverse' depends on axioms: [propext, Classical.choice, Quot.sound]
'GE.C12_steady_state_rejected' depends on axioms: [propext, Quot.sound]
'GE.C12_step_backward' depends on axioms: [propext, Quot.sound]
'GE.C12_step_forward' depends on axioms: [propext, Quot.sound]
'GE.C130_first_order' depends on axioms: [propext, Classical.choice, Quot.sound]
'GE.C130_irf' depends on axioms: [propext, Classical.choice, Quot.sound]
'GE.C130_paths_exist' depends on axioms: [propext, Classical.choice, Quot.sound]
'GE.C130_residual' depends on axioms: [propext, Classical.choice, Quot.sound]
'GE.C130_written' depends on axioms: [propext, Classical.choice, Quot.sound]
'GE.C131_float_roundtrip' depends on axioms: [propext, Quot.sound]
'GE.C131_float_to_values' depends on axioms: [propext, Quot.sound]
'GE.C131_pickle' depends on axioms: [propext, Quot.sound]
'GE.C131_pickle_converts' depends on axioms: [propext, Quot.sound]
'GE.C131_recorded' depends on axioms: [propext, Quot.sound]
'GE.C131_sort_deep_violated' depends on axioms: [propext]
'GE.C131_sort_inplace' depends on axioms: [propext, Classical.choice, Quot.sound]
'GE.C131_sort_partial' depends on axioms: [propext, Classical.choice, Quot.sound]
'GE.C131_sort_strings' depends on axioms: [propext, Classical.choice, Quot.sound]
'GE.C131_success_lost_violated' depends on axioms: [propext]
'GE.C131_values_inplace' depends on axioms: [propext, Quot.sound]
'GE.C131_values_to_float' depends on axioms: [propext, Quot.sound]
'GE.C132_default_improves' depends on axioms: [propext, Classical.choice, Quot.sound]
'GE.C132_guess_shape' depends on axioms: [propext, Classical.choice, Quot.sound]
'GE.C132_jacobian' depends on axioms: [propext, Classical.choice, Quot.sound]
'GE.C132_residuals' depends on axioms: [propext, Classical.choice, Quot.sound]
'GE.C132_solved_guess' depends on axioms: [propext, Classical.choice, Quot.sound]
'GE.C132_verdict' depends on axioms: [propext, Classical.choice, Quot.sound]
'GE.C132_written' depends on axioms: [propext, Classical.choice, Quot.sound]
'GE.C133_equations' depends on axioms: [propext, Classical.choice, Quot.sound]
'GE.C133_known' depends on axioms: [propext, Classical.choice, Quot.sound]
'GE.C133_written_partial' depends on axioms: [propext, Classical.choice, Quot.sound]
'GE.C134_already_solved' depends on axioms: [propext, Classical.choice, Quot.sound]
'GE.C134_foresight_calls' depends on axioms: [propext, Classical.choice, Quot.sound]
'GE.C134_history_violated' depends on axioms: [propext, Classical.choice, Quot.sound]
'GE.C134_no_trials' depends on axioms: [propext, Classical.choice, Quot.sound]
'GE.C134_root_calls_partial' depends on axioms: [propext, Classical.choice, Quot.sound]
'GE.C134_same_call' depends on axioms: [propext, Classical.choice, Quot.sound]
'GE.C134_same_call_radius' depends on axioms: [propext, Classical.choice, Quot.sound]
'GE.C134_solve_perfect_foresight' depends on axioms: [propext, Classical.choice, Quot.sound]
'GE.C134_stale_violated' depends on axioms: [propext, Classical.choice, Quot.sound]
'GE.C134_trust_regions' depends on axioms: [propext, Classical.choice, Quot.sound]
'GE.C135_lines' depends on axioms: [propext, Classical.choice, Quot.sound]
'GE.C135_solutions' depends on axioms: [propext, Classical.choice, Quot.sound]
'GE.C136_backward_violated' depends on axioms: [propext, Classical.choice, Quot.sound]
'GE.C136_rate' depends on axioms: [propext, Classical.choice, Quot.sound]
'GE.C136_written' depends on axioms: [propext, Classical.choice, Quot.sound]
'GE.C137_count' depends on axioms: [propext, Classical.choice, Quot.sound]
'GE.C137_equations' depends on axioms: [propext, Classical.choice, Quot.sound]
'GE.C137_root' depends on axioms: [propext, Classical.choice, Quot.sound]
'GE.C137_singular_violated' depends on axioms: [propext, Classical.choice, Quot.sound]
'GE.C137_solved' depends on axioms: [propext, Classical.choice, Quot.sound]
'GE.C137_verdict' depends on axioms: [propext, Classical.choice, Quot.sound]
'GE.C137_written' depends on axioms: [propext, Classical.choice, Quot.sound]
'GE.C138_equilibrium' depends on axioms: [propext, Classical.choice, Quot.sound]
'GE.C138_moments' depends on axioms: [propext, Classical.choice, Quot.sound]
'GE.C138_solve_model' depends on axioms: [propext, Classical.choice, Quot.sound]
'GE.C139_message' depends on axioms: [propext, Classical.choice, Quot.sound]
'GE.C139_reordered' depends on axioms: [propext, Classical.choice, Quot.sound]
'GE.C139_sorting' depends on axioms: [propext, Classical.choice, Quot.sound]
'GE.C139_summary' depends on axioms: [propext, Classical.choice, Quot.sound]
'GE.C139_table' depends on axioms: [propext, Classical.choice, Quot.sound]
'GE.C139_verdict' depends on axioms: [propext, Classical.choice, Quot.sound]
'GE.C139_writing_order' depends on axioms: [propext, Classical.choice, Quot.sound]
'GE.C13_steady_state' depends on axioms: [propext, Classical.choice, Quot.sound]
'GE.C140_covariance' depends on axioms: [propext, Classical.choice, Quot.sound]
'GE.C140_irf' depends on axioms: [propext, Classical.choice, Quot.sound]
'GE.C140_other_solvers' depends on axioms: [propext, Classical.choice, Quot.sound]
'GE.C140_solution' depends on axioms: [propext, Classical.choice, Quot.sound]
'GE.C140_solvable' depends on axioms: [propext, Classical.choice, Quot.sound]
'GE.C141_covariance' depends on axioms: [propext, Classical.choice, Quot.sound]
'GE.C141_irf' depends on axioms: [propext, Classical.choice, Quot.sound]
'GE.C141_solution' depends on axioms: [propext, Classical.choice, Quot.sound]
'GE.C141_solvable' depends on axioms: [propext, Classical.choice, Quot.sound]
'GE.C142_equivalence' depends on axioms: [propext, Classical.choice, Quot.sound]
'GE.C142_exchanged' depends on axioms: [propext, Classical.choice, Quot.sound]
'GE.C142_logs' depends on axioms: [propext, Classical.choice, Quot.sound]
'GE.C142_multiplied' depends on axioms: [propext, Classical.choice, Quot.sound]
'GE.C142_solution' depends on axioms: [propext, Classical.choice, Quot.sound]
'GE.C143_correlations' depends on axioms: [propext, Classical.choice, Quot.sound]
'GE.C143_covariance' depends on axioms: [propext, Classical.choice, Quot.sound]
'GE.C143_decay' depends on axioms: [propext, Classical.choice, Quot.sound]
'GE.C143_responses' depends on axioms: [propext, Classical.choice, Quot.sound]
'GE.C143_solved' depends on axioms: [propext, Classical.choice, Quot.sound]
'GE.C144_perfect_foresight' depends on axioms: [propext, Classical.choice, Quot.sound]
'GE.C144_simulate' depends on axioms: [propext, Classical.choice, Quot.sound]
'GE.C145_annotation' depends on axioms: [propext, Classical.choice, Quot.sound]
'GE.C145_catalog' depends on axioms: [propext, Classical.choice, Quot.sound]
'GE.C145_code' depends on axioms: [propext, Classical.choice, Quot.sound]
'GE.C145_component' depends on axioms: [propext, Classical.choice, Quot.sound]
'GE.C145_distinct' depends on axioms: [propext, Classical.choice, Quot.sound]
'GE.C145_expression' depends on axioms: [propext, Classical.choice, Quot.sound]
'GE.C145_expression_code' depends on axioms: [propext, Classical.choice, Quot.sound]
'GE.C145_expression_violated' depends on axioms: [propext, Classical.choice, Quot.sound]
'GE.C145_index_violated' depends on axioms: [propext, Classical.choice, Quot.sound]
'GE.C145_operator_violated' depends on axioms: [propext, Classical.choice, Quot.sound]
'GE.C145_parenthesis' depends on axioms: [propext, Classical.choice, Quot.sound]
'GE.C145_quoted_violated' depends on axioms: [propext, Classical.choice, Quot.sound]
'GE.C145_report' depends on axioms: [propext, Classical.choice, Quot.sound]
'GE.C145_semicolon' depends on axioms: [propext, Classical.choice, Quot.sound]
'GE.C145_semicolon_violated' depends on axioms: [propext, Classical.choice, Quot.sound]
'GE.C145_unclosed' depends on axioms: [propext, Classical.choice, Quot.sound]
'GE.C146_backward' depends on axioms: [propext, Classical.choice, Quot.sound]
'GE.C146_impulse' depends on axioms: [propext, Classical.choice, Quot.sound]
'GE.C146_matrices' depends on axioms: [propext, Classical.choice, Quot.sound]
'GE.C146_rule' depends on axioms: [propext, Classical.choice, Quot.sound]
'GE.C147_calibration_violated' depends on axioms: [propext, Classical.choice, Quot.sound]
'GE.C147_collect' depends on axioms: [propext, Quot.sound]
'GE.C147_distinct' depends on axioms: [propext, Classical.choice, Quot.sound]
'GE.C147_distribution' depends on axioms: [propext, Classical.choice, Quot.sound]
'GE.C147_equation' depends on axioms: [propext, Classical.choice, Quot.sound]
'GE.C147_equations' depends on axioms: [propext, Quot.sound]
'GE.C147_expression' depends on axioms: [propext, Classical.choice, Quot.sound]
'GE.C147_get_block' depends on axioms: [propext, Quot.sound]
'GE.C147_multiplier_violated' depends on axioms: [propext, Classical.choice, Quot.sound]
'GE.C147_optimization' depends on axioms: [propext]
'GE.C147_parameters' depends on axioms: [propext, Quot.sound]
'GE.C147_parsed' depends on axioms: [propext, Classical.choice, Quot.sound]
'GE.C147_variables' depends on axioms: [propext, Quot.sound]
'GE.C148_default' depends on axioms: [propext, Classical.choice, Quot.sound]
'GE.C148_default_layout' depends on axioms: [propext, Classical.choice, Quot.sound]
'GE.C148_default_other_solvers' depends on axioms: [propext, Classical.choice, Quot.sound]
'GE.C148_default_solution' depends on axioms: [propext, Classical.choice, Quot.sound]
'GE.C148_equations' depends on axioms: [propext, Classical.choice, Quot.sound]
'GE.C148_layout' depends on axioms: [propext, Classical.choice, Quot.sound]
'GE.C148_order' depends on axioms: [propext, Classical.choice, Quot.sound]
'GE.C148_other_solvers' depends on axioms: [propext, Classical.choice, Quot.sound]
'GE.C148_priors' depends on axioms: [propext, Classical.choice, Quot.sound]
'GE.C148_shocks' depends on axioms: [propext, Classical.choice, Quot.sound]
'GE.C148_solution' depends on axioms: [propext, Classical.choice, Quot.sound]
'GE.C149_default' depends on axioms: [propext, Classical.choice, Quot.sound]
'GE.C149_priors' depends on axioms: [propext, Classical.choice, Quot.sound]
'GE.C149_same' depends on axioms: [propext, Classical.choice, Quot.sound]
'GE.C149_shock_priors_violated' depends on axioms: [propext, Classical.choice, Quot.sound]
'GE.C149_tags_violated' depends on axioms: [propext, Classical.choice, Quot.sound]
'GE.C149_tryreduce_violated' depends on axioms: [propext, Classical.choice, Quot.sound]
'GE.C14_absent' depends on axioms: [propext, Classical.choice, Quot.sound]
'GE.C14_default_raises' depends on axioms: [propext, Quot.sound]
'GE.C14_finite_horizon' depends on axioms: [propext, Classical.choice, Quot.sound]
'GE.C14_infinite_horizon' depends on axioms: [propext, Classical.choice, Quot.sound]
'GE.C14_steady_state_raises' depends on axioms: [propext, Quot.sound]
'GE.C14_time_varying_one_lag' depends on axioms: [propext, Classical.choice, Quot.sound]
'GE.C14_time_varying_violated' depends on axioms: [propext, Classical.choice, Quot.sound]
'GE.C15_cycle_iff' depends on axioms: [propext, Classical.choice, Quot.sound]
'GE.C15_keys' depends on axioms: [propext, Classical.choice, Quot.sound]
'GE.C15_resolved_partial' depends on axioms: [propext, Classical.choice, Quot.sound]
'GE.C15_same_values' depends on axioms: [propext, Classical.choice, Quot.sound]
'GE.C15_self_reference_violated' depends on axioms: [propext, Quot.sound]
'GE.C16_block_counts' depends on axioms: [propext, Classical.choice, Quot.sound]
'GE.C16_block_iff' depends on axioms: [propext, Classical.choice, Quot.sound]
'GE.C16_block_names' depends on axioms: [propext, Classical.choice, Quot.sound]
'GE.C16_model_iff' depends on axioms: [propext, Classical.choice, Quot.sound]
'GE.C16_parameters' depends on axioms: [propext, Classical.choice, Quot.sound]
'GE.C17_explicit_validate_partial' depends on axioms: [propext, Quot.sound]
'GE.C17_semantic_errors_accepted' depends on axioms: [propext, Quot.sound]
'GE.C17_validate_ignored' depends on axioms: [propext, Quot.sound]
'GE.C18_full_partial' depends on axioms: [propext, Classical.choice, Quot.sound]
'GE.C18_left_hand_side_missed' depends on axioms: [propext, Quot.sound]
'GE.C18_parameters' depends on axioms: [propext, Classical.choice, Quot.sound]
'GE.C18_right_hand_sides_partial' depends on axioms: [propext, Classical.choice, Quot.sound]
'GE.C19_cross_class_violated' depends on axioms: [propext, Classical.choice, Quot.sound]
'GE.C19_duplicates' depends on axioms: [propext, Classical.choice, Quot.sound]
'GE.C19_load_partial' depends on axioms: [propext, Classical.choice, Quot.sound]
'GE.C19_merge' depends on axioms: [propext, Classical.choice, Quot.sound]
'GE.C19_same_name_violated' depends on axioms: [propext, Classical.choice, Quot.sound]
'GE.C20_flags' depends on axioms: [propext, Quot.sound]
'GE.C20_numbering' depends on axioms: [propext, Classical.choice, Quot.sound]
'GE.C21_classes' depends on axioms: [propext, Quot.sound]
'GE.C21_computed_rejected' depends on axioms: [propext, Quot.sound]
'GE.C21_computed_value' depends on axioms: [propext, Classical.choice, Quot.sound]
'GE.C21_cross_class_violated' depends on axioms: [propext]
'GE.C21_duplicates_raise' depends on axioms: [propext, Quot.sound]
'GE.C21_dynamic_calibrating_raises' depends on axioms: [propext, Quot.sound]
'GE.C22_cross_block_violated' depends on axioms: [propext, Classical.choice, Quot.sound]
'GE.C22_distinct' depends on axioms: [propext, Classical.choice, Quot.sound]
'GE.C22_lagrangian' depends on axioms: [propext, Classical.choice, Quot.sound]
'GE.C22_record_lost' depends on axioms: [propext, Classical.choice, Quot.sound]
'GE.C22_record_misplaced' depends on axioms: [propext, Classical.choice, Quot.sound]
'GE.C22_recorded_partial' depends on axioms: [propext, Classical.choice, Quot.sound]
'GE.C22_user_multiplier' depends on axioms: [propext, Classical.choice, Quot.sound]
'GE.C23_discount_bellman' depends on axioms: [propext, Classical.choice, Quot.sound]
'GE.C23_discount_static' depends on axioms: [propext, Quot.sound]
'GE.C23_equations' depends on axioms: [propext, Classical.choice, Quot.sound]
'GE.C23_foc_is_derivative' depends on axioms: [propext, Classical.choice, Quot.sound]
'GE.C23_no_constraints_raises' depends on axioms: [propext, Classical.choice, Quot.sound]
'GE.C23_no_optimisation' depends on axioms: [propext, Classical.choice, Quot.sound]
'GE.C23_total' depends on axioms: [propext, Classical.choice, Quot.sound]
'GE.C24_block_partial' depends on axioms: [propext, Classical.choice, Quot.sound]
'GE.C24_closed_form_partial' depends on axioms: [propext, Classical.choice, Quot.sound]
'GE.C24_definitions_violated' depends on axioms: [propext, Classical.choice, Quot.sound]
'GE.C24_flipped_violated' depends on axioms: [propext, Classical.choice, Quot.sound]
'GE.C24_generic_unchanged' depends on axioms: [propext, Classical.choice, Quot.sound]
'GE.C24_lagged_input_violated' depends on axioms: [propext, Classical.choice, Quot.sound]
'GE.C24_unrecorded_raises' depends on axioms: [propext, Classical.choice, Quot.sound]
'GE.C25_closed_form_partial' depends on axioms: [propext, Classical.choice, Quot.sound]
'GE.C25_flipped_violated' depends on axioms: [propext, Classical.choice, Quot.sound]
'GE.C26_absent' depends on axioms: [propext, Classical.choice, Quot.sound]
'GE.C26_at_most_one_each' depends on axioms: [propext, Classical.choice, Quot.sound]
'GE.C26_definition_solvable' depends on axioms: [propext, Classical.choice, Quot.sound]
'GE.C26_definitions' depends on axioms: [propext, Classical.choice, Quot.sound]
'GE.C26_not_square' depends on axioms: [propext, Quot.sound]
'GE.C26_removed_equations' depends on axioms: [propext, Classical.choice, Quot.sound]
'GE.C26_solutions_extend_partial' depends on axioms: [propext, Classical.choice, Quot.sound]
'GE.C26_solutions_kept' depends on axioms: [propext, Classical.choice, Quot.sound]
'GE.C26_unsolvable_violated' depends on axioms: [propext, Classical.choice, Quot.sound]
'GE.C27_eliminated' depends on axioms: [propext, Classical.choice, Quot.sound]
'GE.C27_first_root_violated' depends on axioms: [propext, Classical.choice, Quot.sound]
'GE.C27_no_trivial' depends on axioms: [propext, Classical.choice, Quot.sound]
'GE.C27_not_square' depends on axioms: [propext, Quot.sound]
'GE.C27_solutions_partial' depends on axioms: [propext, Classical.choice, Quot.sound]
'GE.C27_steady_state_violated' depends on axioms: [propext, Classical.choice, Quot.sound]
'GE.C27_unsolvable_raises' depends on axioms: [propext, Classical.choice, Quot.sound]
'GE.C28_assumptions_violated' depends on axioms: [propext]
'GE.C28_combinations' depends on axioms: [propext, Classical.choice, Quot.sound]
'GE.C28_comparable' depends on axioms: [propext, Classical.choice, Quot.sound]
'GE.C28_iteration_order' depends on axioms: [propext, Classical.choice, Quot.sound]
'GE.C28_membership' depends on axioms: [propext, Classical.choice, Quot.sound]
'GE.C28_numeric' depends on axioms: [propext, Classical.choice, Quot.sound]
'GE.C28_order' depends on axioms: [propext, Classical.choice, Quot.sound]
'GE.C28_rejects' depends on axioms: [propext, Classical.choice, Quot.sound]
'GE.C28_sorted' depends on axioms: [propext, Classical.choice, Quot.sound]
'GE.C28_text' depends on axioms: [propext, Classical.choice, Quot.sound]
'GE.C28_tie_violated' depends on axioms: [propext, Classical.choice, Quot.sound]
'GE.C29_arrays_filled' depends on axioms: [propext, Quot.sound]
'GE.C29_entries_exact' depends on axioms: [propext, Classical.choice, Quot.sound]
'GE.C29_is_derivative' depends on axioms: [propext, Classical.choice, Quot.sound]
'GE.C29_is_derivative_at' depends on axioms: [propext, Classical.choice, Quot.sound]
'GE.C29_singular_violated' depends on axioms: [propext, Classical.choice, Quot.sound]
'GE.C29_stacked_jacobian_partial' depends on axioms: [propext, Classical.choice, Quot.sound]
'GE.C29_violated' depends on axioms: [propext, Classical.choice, Quot.sound]
'GE.C30_residuals' depends on axioms: [propext, Classical.choice, Quot.sound]
'GE.C30_same_residuals' depends on axioms: [propext]
'GE.C30_zero_iff' depends on axioms: [propext, Classical.choice, Quot.sound]
'GE.C31_param_matrix' depends on axioms: [propext, Classical.choice, Quot.sound]
'GE.C31_shock_matrix' depends on axioms: [propext, Quot.sound]
'GE.C31_validation' depends on axioms: [propext, Quot.sound]
'GE.C32_chord' depends on axioms: [propext, Classical.choice, Quot.sound]
'GE.C32_directions' depends on axioms: [propext, Classical.choice, Quot.sound]
'GE.C32_monotone' depends on axioms: [propext, Classical.choice, Quot.sound]
'GE.C32_search_succeeds' depends on axioms: [propext, Classical.choice, Quot.sound]
'GE.C32_slope' depends on axioms: [propext, Classical.choice, Quot.sound]
'GE.C33_reuse_violated' depends on axioms: [propext, Classical.choice, Quot.sound]
'GE.C33_window_partial' depends on axioms: [propext, Classical.choice, Quot.sound]
'GE.C34_dogleg_inside' depends on axioms: [propext, Classical.choice, Quot.sound]
'GE.C34_run' depends on axioms: [propext, Classical.choice, Quot.sound]
'GE.C34_steihaug_inside' depends on axioms: [propext, Classical.choice, Quot.sound]
'GE.C34_steihaug_no_zero_division' depends on axioms: [propext, Classical.choice, Quot.sound]
'GE.C34_steihaug_predicted_positive' depends on axioms: [propext, Classical.choice, Quot.sound]
'GE.C34_step' depends on axioms: [propext, Classical.choice, Quot.sound]
'GE.C35_bounded_and_consistent' depends on axioms: [propext, Classical.choice, Quot.sound]
'GE.C35_solvers' depends on axioms: [propext, Classical.choice, Quot.sound]
'GE.C35_success' depends on axioms: [propext, Classical.choice, Quot.sound]
'GE.C35_success_without_root' depends on axioms: [propext, Classical.choice, Quot.sound]
'GE.C36_backward' depends on axioms: [propext, Classical.choice, Quot.sound]
'GE.C36_backward_is_general' depends on axioms: [propext, Classical.choice, Quot.sound]
'GE.C36_necessary' depends on axioms: [propext, Classical.choice, Quot.sound]
'GE.C36_path_solves' depends on axioms: [propext, Classical.choice, Quot.sound]
'GE.C37_closed_form' depends on axioms: [propext, Classical.choice, Quot.sound]
'GE.C37_covariance' depends on axioms: [propext, Classical.choice, Quot.sound]
'GE.C37_dict_joint_raises' depends on axioms: [propext, Classical.choice, Quot.sound]
'GE.C37_dict_joint_violated' depends on axioms: [propext, Classical.choice, Quot.sound]
'GE.C37_individual' depends on axioms: [propext, Classical.choice, Quot.sound]
'GE.C37_individual_trajectory' depends on axioms: [propext, Classical.choice, Quot.sound]
'GE.C37_joint_trajectory' depends on axioms: [propext, Classical.choice, Quot.sound]
'GE.C37_orthogonalize_ignored' depends on axioms: [propext, Classical.choice, Quot.sound]
'GE.C37_scaling' depends on axioms: [propext, Classical.choice, Quot.sound]
'GE.C37_simulate' depends on axioms: [propext, Classical.choice, Quot.sound]
'GE.C37_superpose_partial' depends on axioms: [propext, Classical.choice, Quot.sound]
'GE.C37_zero' depends on axioms: [propext, Classical.choice, Quot.sound]
'GE.C38_accepts' depends on axioms: [propext, Classical.choice, Quot.sound]
'GE.C38_dict_names' depends on axioms: [propext, Classical.choice, Quot.sound]
'GE.C38_exactly_one_partial' depends on axioms: [propext, Classical.choice, Quot.sound]
'GE.C38_kind' depends on axioms: [propext, Classical.choice, Quot.sound]
'GE.C38_violated' depends on axioms: [propext, Classical.choice, Quot.sound]
'GE.C39_assumption' depends on axioms: [propext]
'GE.C39_default_all' depends on axioms: [propext, Classical.choice, Quot.sound]
'GE.C39_equation_order' depends on axioms: [propext, Classical.choice, Quot.sound]
'GE.C39_negative_request_ignored' depends on axioms: [propext, Classical.choice, Quot.sound]
'GE.C39_succeeds' depends on axioms: [propext, Classical.choice, Quot.sound]
'GE.C39_user_matrices' depends on axioms: [propext, Classical.choice, Quot.sound]
'GE.C39_variable_order' depends on axioms: [propext, Classical.choice, Quot.sound]
'GE.C39_zero_blocks' depends on axioms: [propext, Classical.choice, Quot.sound]
'GE.C40_necessary' depends on axioms: [propext, Classical.choice, Quot.sound]
'GE.C40_not_sufficient' depends on axioms: [propext, Classical.choice, Quot.sound]
'GE.C40_report' depends on axioms: [propext, Classical.choice, Quot.sound]
'GE.C40_sign_flipped' depends on axioms: [propext, Classical.choice, Quot.sound]
'GE.C40_unstable_count' depends on axioms: [propext, Classical.choice, Quot.sound]
'GE.C41_extra' depends on axioms: [propext, Classical.choice, Quot.sound]
'GE.C41_hyper' depends on axioms: [propext, Quot.sound]
'GE.C41_hyper_in_equation_violated' depends on axioms: [propext, Classical.choice, Quot.sound]
'GE.C41_hyper_kept' depends on axioms: [propext, Classical.choice, Quot.sound]
'GE.C41_orphan' depends on axioms: [propext, Quot.sound]
'GE.C41_orphan_partial' depends on axioms: [propext, Quot.sound]
'GE.C41_orphan_violated' depends on axioms: [propext, Quot.sound]
'GE.C41_outcomes' depends on axioms: [propext, Quot.sound]
'GE.C42_suggestions' depends on axioms: [propext, Classical.choice, Quot.sound]
'GE.C43_no_loss_partial' depends on axioms: [propext, Quot.sound]
'GE.C43_violated' depends on axioms: [propext, Quot.sound]
'GE.C44_assumptions' depends on axioms: [propext, Classical.choice, Quot.sound]
'GE.C44_file' depends on axioms: [propext, Classical.choice, Quot.sound]
'GE.C44_symbol' depends on axioms: [propext, Classical.choice, Quot.sound]
'GE.C45_closed_form' depends on axioms: [propext, Classical.choice, Quot.sound]
'GE.C45_consistent' depends on axioms: [propext, Classical.choice, Quot.sound]
'GE.C45_contradiction_unnoticed' depends on axioms: [propext, Classical.choice, Quot.sound]
'GE.C45_exhaustive' depends on axioms: [propext, Classical.choice, Quot.sound]
'GE.C45_identity_holds' depends on axioms: [propext, Classical.choice, Quot.sound]
'GE.C45_implied' depends on axioms: [propext, Classical.choice, Quot.sound]
'GE.C45_iteration_limit_violated' depends on axioms: [propext, Classical.choice, Quot.sound]
'GE.C45_kept' depends on axioms: [propext, Quot.sound]
'GE.C45_lookup' depends on axioms: [propext, Quot.sound]
'GE.C45_order' depends on axioms: [propext, Classical.choice, Quot.sound]
'GE.C46_mixed_violated' depends on axioms: [propext, Classical.choice, Quot.sound]
'GE.C46_one_operator_partial' depends on axioms: [propext, Classical.choice, Quot.sound]
'GE.C46_sound' depends on axioms: [propext, Classical.choice, Quot.sound]
'GE.C47_Q' depends on axioms: [propext, Classical.choice, Quot.sound]
'GE.C47_autocorrelation' depends on axioms: [propext, Classical.choice, Quot.sound]
'GE.C47_autocovariance_partial' depends on axioms: [propext, Classical.choice, Quot.sound]
'GE.C47_dict_violated' depends on axioms: [propext, Classical.choice, Quot.sound]
'GE.C47_from_zero' depends on axioms: [propext, Classical.choice, Quot.sound]
'GE.C47_limit' depends on axioms: [propext, Classical.choice, Quot.sound]
'GE.C47_list_violated' depends on axioms: [propext, Classical.choice, Quot.sound]
'GE.C47_messages_swapped' depends on axioms: [propext, Classical.choice, Quot.sound]
'GE.C47_stationary' depends on axioms: [propext, Classical.choice, Quot.sound]
'GE.C48_deep_lag_violated' depends on axioms: [propext, Classical.choice, Quot.sound]
'GE.C48_shallow_partial' depends on axioms: [propext, Classical.choice, Quot.sound]
'GE.C49_consolidate' depends on axioms: [propext, Classical.choice, Quot.sound]
'GE.C49_consolidate_closed_partial' depends on axioms: [propext, Classical.choice, Quot.sound]
'GE.C49_consolidate_error_iff' depends on axioms: [propext, Classical.choice, Quot.sound]
'GE.C49_other_dates_violated' depends on axioms: [propext, Classical.choice, Quot.sound]
'GE.C49_written_date_partial' depends on axioms: [propext, Classical.choice, Quot.sound]
'GE.C50_direct_partial' depends on axioms: [propext, Classical.choice, Quot.sound]
'GE.C50_log_utility_violated' depends on axioms: [propext, Classical.choice, Quot.sound]
'GE.C50_offset_violated' depends on axioms: [propext, Classical.choice, Quot.sound]
'GE.C51_equation' depends on axioms: [propext, Classical.choice, Quot.sound]
'GE.C51_same_value' depends on axioms: [propext, Classical.choice, Quot.sound]
'GE.C51_total' depends on axioms: [propext, Classical.choice, Quot.sound]
'GE.C51_two_converters_opposite_sign' depends on axioms: [propext, Classical.choice, Quot.sound]
'GE.C52_closed_defs_partial' depends on axioms: [propext, Classical.choice, Quot.sound]
'GE.C52_closed_partial' depends on axioms: [propext, Classical.choice, Quot.sound]
'GE.C52_merge' depends on axioms: [propext, Classical.choice, Quot.sound]
'GE.C53_blocks_partial' depends on axioms: [propext, Classical.choice, Quot.sound]
'GE.C53_same_name_violated' depends on axioms: [propext, Classical.choice, Quot.sound]
'GE.C53_skipped_names' depends on axioms: [propext, Classical.choice, Quot.sound]
'GE.C53_steady_violated' depends on axioms: [propext, Classical.choice, Quot.sound]
'GE.C54_first_block_only' depends on axioms: [propext, Classical.choice, Quot.sound]
'GE.C54_ss_names' depends on axioms: [propext, Classical.choice, Quot.sound]
'GE.C54_values' depends on axioms: [propext, Classical.choice, Quot.sound]
'GE.C55_entry_iff' depends on axioms: [propext, Classical.choice, Quot.sound]
'GE.C55_later_prior_violated' depends on axioms: [propext, Quot.sound]
'GE.C55_linked_partial' depends on axioms: [propext, Quot.sound]
'GE.C55_shock' depends on axioms: [propext, Quot.sound]
'GE.C56_tryreduce' depends on axioms: [propext, Quot.sound]
'GE.C57_parameters' depends on axioms: [propext, Classical.choice, Quot.sound]
'GE.C57_paths_partial' depends on axioms: [propext, Classical.choice, Quot.sound]
'GE.C57_stale_violated' depends on axioms: [propext, Classical.choice, Quot.sound]
'GE.C58_boundary' depends on axioms: [propext, Classical.choice, Quot.sound]
'GE.C58_boundary_params' depends on axioms: [propext, Quot.sound]
'GE.C58_integer_violated' depends on axioms: [propext, Classical.choice, Quot.sound]
'GE.C58_names' depends on axioms: [propext, Classical.choice, Quot.sound]
'GE.C58_types_partial' depends on axioms: [propext, Classical.choice, Quot.sound]
'GE.C59_piecewise' depends on axioms: [propext, Classical.choice, Quot.sound]
'GE.C60_predicted_positive' depends on axioms: [propext, Classical.choice, Quot.sound]
'GE.C60_run' depends on axioms: [propext, Classical.choice, Quot.sound]
'GE.C60_step' depends on axioms: [propext, Classical.choice, Quot.sound]
'GE.C61_a2_message_violated' depends on axioms: [propext, Classical.choice, Quot.sound]
'GE.C61_backward' depends on axioms: [propext, Classical.choice, Quot.sound]
'GE.C61_distance' depends on axioms: [propext, Classical.choice, Quot.sound]
'GE.C61_error_bound' depends on axioms: [propext, Classical.choice, Quot.sound]
'GE.C61_exact' depends on axioms: [propext, Classical.choice, Quot.sound]
'GE.C61_failure_violated' depends on axioms: [propext, Classical.choice, Quot.sound]
'GE.C61_kernel_agrees' depends on axioms: [propext, Classical.choice, Quot.sound]
'GE.C61_policy' depends on axioms: [propext, Classical.choice, Quot.sound]
'GE.C61_report' depends on axioms: [propext, Classical.choice, Quot.sound]
'GE.C61_scan_distance_partial' depends on axioms: [propext, Classical.choice, Quot.sound]
'GE.C61_scan_jitter' depends on axioms: [propext, Classical.choice, Quot.sound]
'GE.C61_scan_jitter_violated' depends on axioms: [propext, Classical.choice, Quot.sound]
'GE.C61_scan_stops' depends on axioms: [propext, Classical.choice, Quot.sound]
'GE.C61_success_violated' depends on axioms: [propext, Classical.choice, Quot.sound]
'GE.C62_exists' depends on axioms: [propext, Classical.choice, Quot.sound]
'GE.C62_gradient' depends on axioms: [propext, Classical.choice, Quot.sound]
'GE.C63_linearize_violated' depends on axioms: [propext, Classical.choice, Quot.sound]
'GE.C63_maybe_linearize_partial' depends on axioms: [propext, Classical.choice, Quot.sound]
'GE.C63_maybe_solve' depends on axioms: [propext, Quot.sound]
'GE.C64_equal_sizes_violated' depends on axioms: [propext, Classical.choice, Quot.sound]
'GE.C64_equations' depends on axioms: [propext, Classical.choice, Quot.sound]
'GE.C64_explicit' depends on axioms: [propext, Classical.choice, Quot.sound]
'GE.C64_labels_partial' depends on axioms: [propext, Classical.choice, Quot.sound]
'GE.C65_given_steady_state_partial' depends on axioms: [propext, Classical.choice, Quot.sound]
'GE.C65_nan_violated' depends on axioms: [propext, Classical.choice, Quot.sound]
'GE.C66_flags' depends on axioms: [propext, Classical.choice, Quot.sound]
'GE.C66_position_partial' depends on axioms: [propext, Classical.choice, Quot.sound]
'GE.C66_selected' depends on axioms: [propext, Quot.sound]
'GE.C66_unknown' depends on axioms: [propext, Classical.choice, Quot.sound]
'GE.C67_accepted_iff' depends on axioms: [propext, Quot.sound]
'GE.C67_constructed' depends on axioms: [propext, Classical.choice, Quot.sound]
'GE.C67_errors' depends on axioms: [propext, Quot.sound]
'GE.C68_real' depends on axioms: [propext, Classical.choice, Quot.sound]
'GE.C68_solution' depends on axioms: [propext, Classical.choice, Quot.sound]
'GE.C68_unique' depends on axioms: [propext, Classical.choice, Quot.sound]
'GE.C68_wrappers' depends on axioms: [propext, Classical.choice, Quot.sound]
'GE.C69_coincident' depends on axioms: [propext, Classical.choice, Quot.sound]
'GE.C69_count' depends on axioms: [propext, Classical.choice, Quot.sound]
'GE.C69_existence' depends on axioms: [propext, Classical.choice, Quot.sound]
'GE.C69_messages' depends on axioms: [propext, Classical.choice, Quot.sound]
'GE.C69_solved_iff' depends on axioms: [propext, Classical.choice, Quot.sound]
'GE.C69_uniqueness' depends on axioms: [propext, Classical.choice, Quot.sound]
'GE.C70_solves_iff' depends on axioms: [propext, Classical.choice, Quot.sound]
'GE.C70_system' depends on axioms: [propext, Classical.choice, Quot.sound]
'GE.C70_undated' depends on axioms: [propext, Classical.choice, Quot.sound]
'GE.C71_error' depends on axioms: [propext, Classical.choice, Quot.sound]
'GE.C71_values' depends on axioms: [propext, Classical.choice, Quot.sound]
'GE.C72_after_propagation' depends on axioms: [propext, Classical.choice, Quot.sound]
'GE.C72_dropped_violated' depends on axioms: [propext, Classical.choice, Quot.sound]
'GE.C72_has_unknown' depends on axioms: [propext, Quot.sound]
'GE.C72_known' depends on axioms: [propext, Quot.sound]
'GE.C72_known_gone' depends on axioms: [propext, Classical.choice, Quot.sound]
'GE.C72_nothing_known' depends on axioms: [propext, Classical.choice, Quot.sound]
'GE.C72_remains_violated' depends on axioms: [propext, Quot.sound]
'GE.C72_same_solutions' depends on axioms: [propext, Classical.choice, Quot.sound]
'GE.C72_system' depends on axioms: [propext]
'GE.C73_known' depends on axioms: [propext, Classical.choice, Quot.sound]
'GE.C73_symbolic_partial' depends on axioms: [propext, Classical.choice, Quot.sound]
'GE.C73_symbolic_violated' depends on axioms: [propext, Quot.sound]
'GE.C74_auxiliaries_gone' depends on axioms: [propext, Classical.choice, Quot.sound]
'GE.C74_simplified' depends on axioms: [propext, Classical.choice, Quot.sound]
'GE.C75_split' depends on axioms: [propext, Classical.choice, Quot.sound]
'GE.C76_later_block_violated' depends on axioms: [propext, Classical.choice, Quot.sound]
'GE.C76_split' depends on axioms: [propext, Quot.sound]
'GE.C77_calibration_violated' depends on axioms: [propext, Quot.sound]
'GE.C77_resolved' depends on axioms: [propext, Classical.choice, Quot.sound]
'GE.C77_values' depends on axioms: [propext, Classical.choice, Quot.sound]
'GE.C78_closed_partial' depends on axioms: [propext, Classical.choice, Quot.sound]
'GE.C78_parameters' depends on axioms: [propext, Classical.choice, Quot.sound]
'GE.C78_solutions_partial' depends on axioms: [propext, Classical.choice, Quot.sound]
'GE.C78_steady_state' depends on axioms: [propext, Classical.choice, Quot.sound]
'GE.C78_unchanged' depends on axioms: [propext, Quot.sound]
'GE.C78_unused_fatal_on_request' depends on axioms: [propext, Quot.sound]
'GE.C78_user_steady_state' depends on axioms: [propext, Classical.choice, Quot.sound]
'GE.C78_variables' depends on axioms: [propext, Classical.choice, Quot.sound]
'GE.C79_assumed_bound' depends on axioms: [propext, Classical.choice, Quot.sound]
'GE.C79_bijective' depends on axioms: [propext, Classical.choice, Quot.sound]
'GE.C79_one_sided_violated' depends on axioms: [propext, Classical.choice, Quot.sound]
'GE.C79_open_bound' depends on axioms: [propext, Classical.choice, Quot.sound]
'GE.C79_same_system' depends on axioms: [propext, Classical.choice, Quot.sound]
'GE.C79_short_name_violated' depends on axioms: [propext, Classical.choice, Quot.sound]
'GE.C79_start_violated' depends on axioms: [propext, Classical.choice, Quot.sound]
'GE.C79_unit_interval_violated' depends on axioms: [propext, Classical.choice, Quot.sound]
'GE.C79_user_bound' depends on axioms: [propext, Classical.choice, Quot.sound]
'GE.C80_found' depends on axioms: [propext, Classical.choice, Quot.sound]
'GE.C80_sound' depends on axioms: [propext, Classical.choice, Quot.sound]
'GE.C80_unknown' depends on axioms: [propext, Classical.choice, Quot.sound]
'GE.C81_accepted_iff' depends on axioms: [propext, Classical.choice, Quot.sound]
'GE.C81_errors' depends on axioms: [propext, Classical.choice, Quot.sound]
'GE.C82_analytic_kept' depends on axioms: [propext, Classical.choice, Quot.sound]
'GE.C82_calibrated_partial' depends on axioms: [propext, Classical.choice, Quot.sound]
'GE.C82_calibrated_violated' depends on axioms: [propext, Classical.choice, Quot.sound]
'GE.C82_every_variable' depends on axioms: [propext, Classical.choice, Quot.sound]
'GE.C82_fixed_kept' depends on axioms: [propext, Classical.choice, Quot.sound]
'GE.C82_linear' depends on axioms: [propext, Classical.choice, Quot.sound]
'GE.C82_linear_fixed_violated' depends on axioms: [propext, Classical.choice, Quot.sound]
'GE.C82_solved' depends on axioms: [propext, Classical.choice, Quot.sound]
'GE.C83_assumption' depends on axioms: [propext]
'GE.C83_dropped_violated' depends on axioms: [propext, Classical.choice, Quot.sound]
'GE.C83_known' depends on axioms: [propext, Classical.choice, Quot.sound]
'GE.C83_optimizer_violated' depends on axioms: [propext, Classical.choice, Quot.sound]
'GE.C83_success_partial' depends on axioms: [propext, Classical.choice, Quot.sound]
'GE.C84_checked' depends on axioms: [propext, Classical.choice, Quot.sound]
'GE.C84_override_violated' depends on axioms: [propext, Classical.choice, Quot.sound]
'GE.C84_reported' depends on axioms: [propext, Classical.choice, Quot.sound]
'GE.C85_packed' depends on axioms: [propext, Classical.choice, Quot.sound]
'GE.C86_bk_escapes_violated' depends on axioms: [propext, Classical.choice, Quot.sound]
'GE.C86_cycle_reduction' depends on axioms: [propext, Classical.choice, Quot.sound]
'GE.C86_dispatch' depends on axioms: [propext, Classical.choice, Quot.sound]
'GE.C86_escapes' depends on axioms: [propext, Classical.choice, Quot.sound]
'GE.C86_first_failure' depends on axioms: [propext, Classical.choice, Quot.sound]
'GE.C86_keyword_violated' depends on axioms: [propext, Classical.choice, Quot.sound]
'GE.C86_nan_violated' depends on axioms: [propext, Classical.choice, Quot.sound]
'GE.C86_norms' depends on axioms: [propext, Classical.choice, Quot.sound]
'GE.C86_parallel_collection' depends on axioms: [propext, Classical.choice, Quot.sound]
'GE.C86_parallel_violated' depends on axioms: [propext, Classical.choice, Quot.sound]
'GE.C86_parameters' depends on axioms: [propext, Classical.choice, Quot.sound]
'GE.C86_priors' depends on axioms: [propext, Classical.choice, Quot.sound]
'GE.C86_refusals' depends on axioms: [propext, Classical.choice, Quot.sound]
'GE.C86_renaming' depends on axioms: [propext, Classical.choice, Quot.sound]
'GE.C86_serial' depends on axioms: [propext, Classical.choice, Quot.sound]
'GE.C86_success' depends on axioms: [propext, Classical.choice, Quot.sound]
'GE.C86_unknown_solver_violated' depends on axioms: [propext, Classical.choice, Quot.sound]
'GE.C87_bounds' depends on axioms: [propext, Classical.choice, Quot.sound]
'GE.C87_fallback_mass_violated' depends on axioms: [propext, Classical.choice, Quot.sound]
'GE.C87_fallback_reversed_violated' depends on axioms: [propext, Classical.choice, Quot.sound]
'GE.C87_generator_violated' depends on axioms: [propext, Classical.choice, Quot.sound]
'GE.C87_power_of_two' depends on axioms: [propext, Classical.choice, Quot.sound]
'GE.C87_ppf' depends on axioms: [propext, Classical.choice, Quot.sound]
'GE.C87_ppf_refuses' depends on axioms: [propext, Classical.choice, Quot.sound]
'GE.C87_ppf_seed' depends on axioms: [propext, Classical.choice, Quot.sound]
'GE.C87_refuses' depends on axioms: [propext, Classical.choice, Quot.sound]
'GE.C87_seed' depends on axioms: [propext, Classical.choice, Quot.sound]
'GE.C87_within' depends on axioms: [propext, Classical.choice, Quot.sound]
'GE.C88_norms' depends on axioms: [propext, Classical.choice, Quot.sound]
'GE.C88_representation' depends on axioms: [propext, Classical.choice, Quot.sound]
'GE.C88_solves' depends on axioms: [propext, Classical.choice, Quot.sound]
'GE.C88_truncation_violated' depends on axioms: [propext, Classical.choice, Quot.sound]
'GE.C88_unseen_columns_violated' depends on axioms: [propext, Classical.choice, Quot.sound]
'GE.C88_zero_iff' depends on axioms: [propext, Classical.choice, Quot.sound]
'GE.C89_arguments' depends on axioms: [propext, Classical.choice, Quot.sound]
'GE.C89_backward_any_solver_violated' depends on axioms: [propext, Classical.choice, Quot.sound]
'GE.C89_diagnostics_agree' depends on axioms: [propext, Classical.choice, Quot.sound]
'GE.C89_error_never_none' depends on axioms: [propext, Classical.choice, Quot.sound]
'GE.C89_failed_steady_state_violated' depends on axioms: [propext, Classical.choice, Quot.sound]
'GE.C89_ignore_gensys' depends on axioms: [propext, Classical.choice, Quot.sound]
'GE.C89_ignore_violated' depends on axioms: [propext, Classical.choice, Quot.sound]
'GE.C89_sound' depends on axioms: [propext, Classical.choice, Quot.sound]
'GE.C90_compile_transparent' depends on axioms: [propext]
'GE.C90_history' depends on axioms: [propext, Classical.choice, Quot.sound]
'GE.C90_lru' depends on axioms: [propext, Classical.choice, Quot.sound]
'GE.C91_norms_partial' depends on axioms: [propext, Classical.choice, Quot.sound]
'GE.C91_norms_violated' depends on axioms: [propext, Classical.choice, Quot.sound]
'GE.C91_potentials' depends on axioms: [propext, Classical.choice, Quot.sound]
'GE.C91_reordered' depends on axioms: [propext, Classical.choice, Quot.sound]
'GE.C91_residual' depends on axioms: [propext, Classical.choice, Quot.sound]
'GE.C92_aggregated' depends on axioms: [propext, Classical.choice, Quot.sound]
'GE.C92_dynamics' depends on axioms: [propext, Classical.choice, Quot.sound]
'GE.C92_levels' depends on axioms: [propext, Classical.choice, Quot.sound]
'GE.C93_accepts' depends on axioms: [propext, Quot.sound]
'GE.C93_coefficients' depends on axioms: [propext, Classical.choice, Quot.sound]
'GE.C93_equation' depends on axioms: [propext, Classical.choice, Quot.sound]
'GE.C93_levels' depends on axioms: [propext, Classical.choice, Quot.sound]
'GE.C93_linearized' depends on axioms: [propext, Classical.choice, Quot.sound]
'GE.C93_unknown_steady_state_accepted' depends on axioms: [propext]
'GE.C94_diagonal' depends on axioms: [propext, Classical.choice, Quot.sound]
'GE.C94_prefix_iff_partial' depends on axioms: [propext, Classical.choice, Quot.sound]
'GE.C94_shocks' depends on axioms: [propext, Classical.choice, Quot.sound]
'GE.C94_violated' depends on axioms: [propext, Classical.choice, Quot.sound]
'GE.C95_accepts' depends on axioms: [propext, Classical.choice, Quot.sound]
'GE.C95_history_violated' depends on axioms: [propext, Classical.choice, Quot.sound]
'GE.C95_parameters' depends on axioms: [propext, Classical.choice, Quot.sound]
'GE.C95_reconfigure' depends on axioms: [propext, Classical.choice, Quot.sound]
'GE.C95_stores' depends on axioms: [propext, Classical.choice, Quot.sound]
'GE.C95_well_formed' depends on axioms: [propext, Classical.choice, Quot.sound]
'GE.C96_aligned' depends on axioms: [propext, Classical.choice, Quot.sound]
'GE.C96_gap_violated' depends on axioms: [propext]
'GE.C96_period_end_violated' depends on axioms: [propext, Quot.sound]
'GE.C96_sound' depends on axioms: [propext, Quot.sound]
'GE.C97_agrees' depends on axioms: [propext, Classical.choice, Quot.sound]
'GE.C97_observed' depends on axioms: [propext, Classical.choice, Quot.sound]
'GE.C97_states' depends on axioms: [propext, Classical.choice, Quot.sound]
'GE.C97_unit' depends on axioms: [propext, Classical.choice, Quot.sound]
'GE.C97_zero_step_partial' depends on axioms: [propext, Classical.choice, Quot.sound]
'GE.C98_bk_growth' depends on axioms: [propext, Classical.choice, Quot.sound]
'GE.C98_bk_values' depends on axioms: [propext, Classical.choice, Quot.sound]
'GE.C98_fixed_eps_violated' depends on axioms: [propext, Classical.choice, Quot.sound]
'GE.C98_regularised' depends on axioms: [propext, Classical.choice, Quot.sound]
'GE.C98_sensitivity_violated' depends on axioms: [propext, Classical.choice, Quot.sound]
'GE.C98_values' depends on axioms: [propext, Classical.choice, Quot.sound]
'GE.C98_vjp' depends on axioms: [propext, Classical.choice, Quot.sound]
'GE.C99_contains' depends on axioms: [propext, Classical.choice, Quot.sound]
'GE.C99_nesting' depends on axioms: [propext, Classical.choice, Quot.sound]
'GE.C99_reassembles' depends on axioms: [propext, Classical.choice, Quot.sound]
