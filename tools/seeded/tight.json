{
 "c006": [
  "C26_at_most_one_each"
 ],
 "c015": [
  "C27_no_trivial"
 ],
 "c048": [
  "C61_scan_stops"
 ],
 "c052": [
  "C38_kind",
  "C37_joint_trajectory"
 ],
 "c055": [
  "C38_kind",
  "C37_joint_trajectory"
 ],
 "c056": [
  "C38_kind"
 ],
 "c061": [
  "C37_covariance"
 ],
 "c065": [
  "model of the array assignment (assignPeriods), C37_joint_trajectory"
 ],
 "d028": [
  "C64_equations"
 ],
 "d036": [
  "C39_default_all"
 ],
 "d092": [
  "C72_system"
 ],
 "e006": [
  "C79_open_bound"
 ],
 "g026": [
  "C86_escapes"
 ],
 "g035": [
  "C86_cycle_reduction"
 ],
 "g036": [
  "C86_cycle_reduction"
 ],
 "g047": [
  "C86_renaming"
 ],
 "g049": [
  "C86_renaming"
 ],
 "g082": [
  "C87_ppf_refuses",
  "C87_ppf_seed"
 ],
 "j030": [
  "C107_names"
 ],
 "j031": [
  "C107_names"
 ],
 "k006": [
  "C110_tab_column"
 ],
 "k009": [
  "C110_quotes"
 ],
 "k024": [
  "C110_caret",
  "C111_str"
 ],
 "k028": [
  "C110_caret",
  "C111_str"
 ],
 "k029": [
  "C111_str"
 ],
 "k030": [
  "C111_expected"
 ],
 "k035": [
  "C111_str"
 ],
 "k036": [
  "C111_str"
 ],
 "k053": [
  "C120_prior",
  "C120_shock_dists",
  "C120_shock_dists_violated"
 ],
 "k054": [
  "C120_prior"
 ],
 "k055": [
  "C120_calibrating",
  "C120_formulas",
  "C120_numbers",
  "C120_numbers_only",
  "C120_prior"
 ],
 "k056": [
  "C120_numbers",
  "C120_numbers_only",
  "C120_prior",
  "C120_shock_dists"
 ],
 "k057": [
  "C120_calibrating",
  "C120_formulas",
  "C120_numbers",
  "C120_numbers_only",
  "C120_prior"
 ],
 "k063": [
  "C120_shocks"
 ],
 "k064": [
  "C120_shock_dists"
 ],
 "k065": [
  "C120_calibrating",
  "C120_formulas",
  "C120_numbers",
  "C120_numbers_only",
  "C120_prior"
 ],
 "k067": [
  "C120_tryreduce"
 ],
 "n056": [
  "C120_accepted"
 ],
 "n058": [
  "C120_parse_result"
 ],
 "n059": [
  "C120_parse_result"
 ],
 "n060": [
  "C120_parse_result"
 ],
 "p001": [
  "C124_names"
 ],
 "q005": [
  "C18_full_partial"
 ],
 "q006": [
  "C18_full_partial"
 ],
 "q029": [
  "C41_hyper",
  "C41_hyper_kept"
 ],
 "q047": [
  "C03_symbol_of_string"
 ],
 "q059": [
  "C86_success"
 ],
 "q076": [
  "C111_context"
 ],
 "q078": [
  "model of the rebuilt error (Error.rebuild), C109_moved"
 ],
 "q135": [
  "C39_assumption"
 ],
 "q137": [
  "C114_corner_all"
 ],
 "q147": [
  "C83_assumption"
 ],
 "q150": [
  "C123_minimize_setup"
 ],
 "q158": [
  "C26_definitions"
 ],
 "q170": [
  "C32_chord"
 ],
 "q171": [
  "C32_chord"
 ],
 "q185": [
  "C94_shocks"
 ],
 "q186": [
  "C95_parameters"
 ],
 "q187": [
  "C95_parameters"
 ],
 "r043": [
  "C127_calibration_variable"
 ],
 "r081": [
  "C129_heatmap_labels"
 ],
 "r102": [
  "C129_sensitivity_default"
 ],
 "w011": [
  "C132_guess_shape"
 ],
 "w015": [
  "C132_jacobian"
 ],
 "w038": [
  "C134_history_violated"
 ],
 "w042": [
  "C134_already_solved"
 ],
 "w043": [
  "C134_no_trials"
 ],
 "w048": [
  "C134_same_call_radius"
 ],
 "u133": [
  "C44_symbol"
 ],
 "u137": [
  "C126_characters"
 ],
 "u138": [
  "C126_characters"
 ],
 "x005": [
  "C139_verdict"
 ],
 "x006": [
  "C139_verdict"
 ]
}