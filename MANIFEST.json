{
 "claims": [
  {
   "property": "C01",
   "status": "partial",
   "theorems": [
    "Adv.Props.C01_straight_line",
    "Adv.Props.C01_smooth",
    "Adv.Props.C01_frechet_partial",
    "Adv.Props.C01_abs_increment_counterexample"
   ],
   "note": "Proved in full for functions without abs (C01_smooth). With abs the literal claim is false of the code when the increment crosses the kink (C01_abs_increment_counterexample); C01_frechet_partial proves it when it does not. Control flow may depend on values as long as it is locally constant."
  },
  {
   "property": "C02",
   "status": "proved",
   "theorems": [
    "Adv.Props.C02_seeds_do_not_change_values",
    "Adv.Props.C02_recording_does_not_change_results",
    "Adv.Props.C02_results_independent_of_contexts"
   ],
   "note": ""
  },
  {
   "property": "C03",
   "status": "proved",
   "theorems": [
    "Adv.Props.C03_tape_stores_evaluation",
    "Adv.Props.C03_tape_panics_iff"
   ],
   "note": ""
  },
  {
   "property": "C04",
   "status": "proved",
   "theorems": [
    "Adv.Props.C04_replay_evaluates",
    "Adv.Props.C04_needs_straight_line"
   ],
   "note": "Control flow independence is the hypothesis StraightLine; C04_needs_straight_line shows that it cannot be dropped."
  },
  {
   "property": "C05",
   "status": "proved",
   "theorems": [
    "Adv.Props.C05_replay_history_independent",
    "Adv.Props.C05_replay_at_own_point",
    "Adv.Props.C05_recorded_proper"
   ],
   "note": ""
  },
  {
   "property": "C06",
   "status": "proved",
   "theorems": [
    "Adv.Props.C06_replay_checks_length"
   ],
   "note": ""
  },
  {
   "property": "C07",
   "status": "partial",
   "theorems": [
    "Adv.Props.C07_forward_eq_tapeless_exact",
    "Adv.Props.C07_forward_eq_tapeless_partial",
    "Adv.Props.C07_nan_counterexample"
   ],
   "note": "Exact equality holds over scalars satisfying the field laws; for arbitrary scalars it needs functions without operations on constants only (C07_forward_eq_tapeless_partial); C07_nan_counterexample shows the literal claim is false with NaN."
  },
  {
   "property": "C08",
   "status": "proved",
   "theorems": [
    "Adv.Props.C08_forward_linear"
   ],
   "note": ""
  },
  {
   "property": "C09",
   "status": "partial",
   "theorems": [
    "Adv.Props.C09_reverse_is_adjoint_partial",
    "Adv.Props.C09_duplicate_dependents_counterexample"
   ],
   "note": "Proved for tapes whose dependents are pairwise distinct. False of the code otherwise: first_order_reverse assigns instead of accumulating the seed of a repeated dependent (C09_duplicate_dependents_counterexample). The exact behaviour without this condition is C57."
  },
  {
   "property": "C10",
   "status": "proved",
   "theorems": [
    "Adv.Props.C10_jacobian_reverse_panics_iff_abs",
    "Adv.Props.C10_reverse_panics_iff_abs"
   ],
   "note": ""
  },
  {
   "property": "C11",
   "status": "proved",
   "theorems": [
    "Adv.Props.C11_jacobian_forward",
    "Adv.Props.C11_jacobian_reverse"
   ],
   "note": ""
  },
  {
   "property": "C12",
   "status": "partial",
   "theorems": [
    "Adv.Props.C12_forward_eq_reverse_partial",
    "Adv.Props.C12_duplicate_outputs_counterexample",
    "Adv.Props.C12_replayed_partial"
   ],
   "note": "Proved for functions whose outputs are pairwise distinct variables, for the tape recorded at x and (straight-line functions) for tapes replayed at x. False of the code otherwise (C12_duplicate_outputs_counterexample), because of the reverse sweep. The exact behaviour without this condition is C57."
  },
  {
   "property": "C13",
   "status": "proved",
   "theorems": [
    "Adv.Props.C13_products_schedule",
    "Adv.Props.C13_abs_drivers_schedule",
    "Adv.Props.C13_jacobian_forward_schedule",
    "Adv.Props.C13_jacobian_reverse_schedule"
   ],
   "note": ""
  },
  {
   "property": "C14",
   "status": "proved",
   "theorems": [
    "Adv.Props.C14_piecewise_linearization"
   ],
   "note": ""
  },
  {
   "property": "C15",
   "status": "partial",
   "theorems": [
    "Adv.Props.C15_piecewise_linear_model_partial",
    "Adv.Props.C15_repeated_argument_counterexample"
   ],
   "note": "Proved for functions whose abs arguments and outputs are pairwise distinct variables. False of the code otherwise (C15_repeated_argument_counterexample), because abs_normal computes L (and sometimes Z, J, Y) from reverse sweeps. The exact behaviour without this condition is C57."
  },
  {
   "property": "C16",
   "status": "proved",
   "theorems": [
    "Adv.Props.C16_L_strictly_lower",
    "Adv.Props.C16_L_view_strictly_lower"
   ],
   "note": ""
  },
  {
   "property": "C17",
   "status": "partial",
   "theorems": [
    "Adv.Props.C17_mul_right",
    "Adv.Props.C17_products_partial",
    "Adv.Props.C17_nonconforming_panics",
    "Adv.Props.C17_repeated_argument_counterexample"
   ],
   "note": "Right products unrestricted; both products if the dependents of the view are pairwise distinct. False of the code otherwise (C17_repeated_argument_counterexample). The exact behaviour without this condition is C57."
  },
  {
   "property": "C18",
   "status": "partial",
   "theorems": [
    "Adv.Props.C18_row_partial",
    "Adv.Props.C18_row_out_of_range",
    "Adv.Props.C18_column_panics",
    "Adv.Props.C18_column_single"
   ],
   "note": "Rows if the dependents are pairwise distinct. Columns: false of the code, column(i) panics unless the matrix has exactly one column (C18_column_panics), because the indicator is built as a row vector. The exact behaviour without this condition is C57."
  },
  {
   "property": "C19",
   "status": "partial",
   "theorems": [
    "Adv.Props.C19_exact_at_dx_partial",
    "Adv.Props.C19_repeated_argument_counterexample"
   ],
   "note": "Proved if the abs arguments are pairwise distinct variables and the outputs are pairwise distinct variables. False of the code otherwise (C19_repeated_argument_counterexample): first_order_reverse overwrites instead of accumulating the seeds of repeated dependents. The exact behaviour without this condition is C57."
  },
  {
   "property": "C20",
   "status": "partial",
   "theorems": [
    "Adv.Props.C20_active_piece_partial",
    "Adv.Props.C20_neighbourhood_partial"
   ],
   "note": "Proved if the abs arguments are pairwise distinct variables and the outputs are pairwise distinct variables; false otherwise for the same reason as C19. The exact behaviour without this condition is C57."
  },
  {
   "property": "C21",
   "status": "partial",
   "theorems": [
    "Adv.Props.C21_multiplicity",
    "Adv.Props.C21_signature_partial",
    "Adv.Props.C21_bits_exhausted"
   ],
   "note": "The multiplicity is proved without restriction. That the result is the affine piece of the chosen signature is proved for distinct abs arguments and distinct outputs. The exact behaviour without this condition is C57."
  },
  {
   "property": "C22",
   "status": "partial",
   "theorems": [
    "Adv.Props.C22_smooth_partial",
    "Adv.Props.C22_duplicate_outputs_counterexample"
   ],
   "note": "Proved for functions with pairwise distinct outputs. False of the code otherwise (C22_duplicate_outputs_counterexample). The exact behaviour without this condition is C57."
  },
  {
   "property": "C23",
   "status": "proved",
   "theorems": [
    "Adv.Props.C23_next_composes",
    "Adv.Props.C23_bad_next_panics",
    "Adv.Props.C23_wrong_direction_panics"
   ],
   "note": ""
  },
  {
   "property": "C24",
   "status": "partial",
   "theorems": [
    "Adv.Props.C24_returns",
    "Adv.Props.C24_composition",
    "Adv.Props.C24_exact_partial",
    "Adv.Props.C24_exact_counterexample"
   ],
   "note": "Composition and absence of panics are proved without restriction. Exactness is proved if in the tape of every link the abs arguments and the outputs are pairwise distinct variables; false otherwise (C24_exact_counterexample)."
  },
  {
   "property": "C25",
   "status": "partial",
   "theorems": [
    "Adv.Props.C25_checkpoints_irrelevant",
    "Adv.Props.C25_default_partial",
    "Adv.Props.C25_default_counterexample"
   ],
   "note": "Independence of ncheckpoints is proved. None is not always a valid default: it panics for every chain with fewer than two links (C25_default_counterexample)."
  },
  {
   "property": "C26",
   "status": "proved",
   "theorems": [
    "Adv.Props.C26_reverse_fold",
    "Adv.Props.C26_reverse_fold_effects"
   ],
   "note": "For every nsteps, ncheckpoints within the machine word limit (SizeOk) and every sound starting estimate (C30_estimate_sound: any floating point estimate with error at most 1/2)."
  },
  {
   "property": "C27",
   "status": "proved",
   "theorems": [
    "Adv.Props.C27_budget"
   ],
   "note": ""
  },
  {
   "property": "C28",
   "status": "proved",
   "theorems": [
    "Adv.Props.C28_total",
    "Adv.Props.C28_too_few_checkpoints",
    "Adv.Props.C28_word_limit_counterexample"
   ],
   "note": "Within the machine word limit SizeOk: ncheckpoints > nsteps or (nsteps+1)*ncheckpoints < 2^63; outside it the code panics (C28_word_limit_counterexample)."
  },
  {
   "property": "C29",
   "status": "proved",
   "theorems": [
    "Adv.Props.C29_schedule",
    "Adv.Props.C29_tail"
   ],
   "note": ""
  },
  {
   "property": "C30",
   "status": "proved",
   "theorems": [
    "Adv.Props.C30_find_t",
    "Adv.Props.C30_find_t_one",
    "Adv.Props.C30_estimate_sound",
    "Adv.Props.C30_exact_estimate"
   ],
   "note": ""
  },
  {
   "property": "C31",
   "status": "proved",
   "theorems": [
    "Adv.Props.C31_calls"
   ],
   "note": ""
  },
  {
   "property": "C32",
   "status": "proved",
   "theorems": [
    "Adv.Props.C32_chain_eval_composition",
    "Adv.Props.C32_nesting_irrelevant",
    "Adv.Props.C32_flatten_len_nth"
   ],
   "note": ""
  },
  {
   "property": "C33",
   "status": "proved",
   "theorems": [
    "Adv.Props.C33_append_checks",
    "Adv.Props.C33_built_chains_consistent"
   ],
   "note": ""
  },
  {
   "property": "C34",
   "status": "proved",
   "theorems": [
    "Adv.Props.C34_concurrent_new_id_fresh",
    "Adv.Props.C34_new_id_fresh",
    "Adv.Props.C34_ids_never_reused",
    "Adv.Props.C34_operation_isolated",
    "Adv.Props.C34_handle_isolated"
   ],
   "note": ""
  },
  {
   "property": "C35",
   "status": "proved",
   "theorems": [
    "Adv.Props.C35_mixed_operation_panics",
    "Adv.Props.C35_foreign_set_dep_panics"
   ],
   "note": ""
  },
  {
   "property": "C36",
   "status": "proved",
   "theorems": [
    "Adv.Props.C36_dead_variables_are_constants",
    "Adv.Props.C36_dropped_stays_dropped"
   ],
   "note": ""
  },
  {
   "property": "C37",
   "status": "proved",
   "theorems": [
    "Adv.Props.C37_recordings_well_formed",
    "Adv.Props.C37_variables_in_bounds",
    "Adv.Props.C37_recordings_append_only",
    "Adv.Props.C37_no_access_after_free",
    "Adv.Props.C37_calls_finish",
    "Adv.Props.C37_uninterrupted_operation",
    "Adv.Props.C37_uninterrupted_calls",
    "Adv.Props.C37_uninterrupted_new"
   ],
   "note": "Sequentially consistent interleaving at lock granularity; any number of threads; includes memory safety of the reference counting and a link to the sequential model."
  },
  {
   "property": "C38",
   "status": "proved",
   "theorems": [
    "Adv.Props.C38_snapshot_usable",
    "Adv.Props.C38_snapshot_may_be_incomplete"
   ],
   "note": "Snapshots are well formed and consistent but may miss independents (C38_snapshot_may_be_incomplete). first_order_reverse additionally needs a tape without abs, as always."
  },
  {
   "property": "C39",
   "status": "proved",
   "theorems": [
    "Adv.Props.C39_concurrent_from_cid_finds",
    "Adv.Props.C39_concurrent_registry",
    "Adv.Props.C39_from_cid_iff_alive",
    "Adv.Props.C39_registry_is_live_handles",
    "Adv.Props.C39_last_drop_removes"
   ],
   "note": ""
  },
  {
   "property": "C40",
   "status": "proved",
   "theorems": [
    "Adv.Props.C40_comparisons_depend_on_values",
    "Adv.Props.C40_comparisons_are_scalar_tests"
   ],
   "note": ""
  },
  {
   "property": "C41",
   "status": "partial",
   "theorems": [
    "Adv.Props.C41_neg",
    "Adv.Props.C41_recip",
    "Adv.Props.C41_mul_add",
    "Adv.Props.C41_powi",
    "Adv.Props.C41_sqrt",
    "Adv.Props.C41_exp2",
    "Adv.Props.C41_log",
    "Adv.Props.C41_log2",
    "Adv.Props.C41_log10",
    "Adv.Props.C41_hypot",
    "Adv.Props.C41_sin_cos",
    "Adv.Props.C41_cbrt_partial",
    "Adv.Props.C41_cbrt_value",
    "Adv.Props.C41_cbrt_counterexample",
    "Adv.Props.C41_max",
    "Adv.Props.C41_min",
    "Adv.Props.C41_total_without_context"
   ],
   "note": "cbrt is computed as powf(1/3) in any arithmetic (C41_cbrt_value) and only proved to be the cube root for positive arguments; it is false of the code for negative ones (C41_cbrt_counterexample). All other methods are proved on their full domain."
  },
  {
   "property": "C42",
   "status": "partial",
   "theorems": [
    "Adv.Props.C42_abs_sub_is_not_positive_difference",
    "Adv.Props.C42_abs_sub_partial"
   ],
   "note": "False of the code: abs_sub returns |a-b| (C42_abs_sub_is_not_positive_difference). Agrees when a >= b."
  },
  {
   "property": "C43",
   "status": "proved",
   "theorems": [
    "Adv.Props.C43_mixed_and_assigning_operators",
    "Adv.Props.C43_operators_are_methods",
    "Adv.Props.C43_mixed_values"
   ],
   "note": ""
  },
  {
   "property": "C44",
   "status": "partial",
   "theorems": [
    "Adv.Props.C44_conversion_truncates",
    "Adv.Props.C44_conversion_partial"
   ],
   "note": "False of the code: to_f64 goes through to_i64 and truncates (C44_conversion_truncates). Holds for integers."
  },
  {
   "property": "C45",
   "status": "proved",
   "theorems": [
    "Adv.Props.C45_unsupported_operations_panic"
   ],
   "note": ""
  },
  {
   "property": "C46",
   "status": "proved",
   "theorems": [
    "Adv.Props.C46_adv_fn_checks_dimensions"
   ],
   "note": ""
  },
  {
   "property": "C47",
   "status": "partial",
   "theorems": [
    "Adv.Props.C47_mixed_add_partial",
    "Adv.Props.C47_mixed_is_always_add",
    "Adv.Props.C47_mixed_counterexample",
    "Adv.Props.C47_operator",
    "Adv.Props.C47_unary",
    "Adv.Props.C47_binary"
   ],
   "note": "Proved for + (C47_mixed_add_partial). False of the code for - * /: the body of the mixed operator is always lhs + rhs (C47_mixed_counterexample, C47_mixed_is_always_add). ADouble OP ADouble is correct for every OP."
  },
  {
   "property": "C48",
   "status": "partial",
   "theorems": [
    "Adv.Props.C48_no_undefined_behaviour_partial",
    "Adv.Props.C48_self_copy_assignment_counterexample",
    "Adv.Props.C48_no_leak",
    "Adv.Props.C48_all_freed",
    "Adv.Props.C48_not_shared",
    "Adv.Props.C48_value_semantics_partial",
    "Adv.Props.C48_self_move_resets",
    "Adv.Props.C48_context_self_move"
   ],
   "note": "Proved for all client histories without copy self-assignment. False of the code for x = x, which reads freed memory in every state (C48_self_copy_assignment_counterexample)."
  },
  {
   "property": "C49",
   "status": "proved",
   "theorems": [
    "Adv.Props.C49_failed_set_dep_poisons"
   ],
   "note": ""
  },
  {
   "property": "C50",
   "status": "proved",
   "theorems": [
    "Adv.Props.C50_recorded_tapes_single_assignment",
    "Adv.Props.C50_function_tapes_single_assignment",
    "Adv.Props.C50_raw_record_not_single_assignment"
   ],
   "note": ""
  },
  {
   "property": "C51",
   "status": "proved",
   "theorems": [
    "Adv.Props.C51_constant_adjoints_do_not_leak",
    "Adv.Props.C51_constant_exponent_gradient"
   ],
   "note": ""
  },
  {
   "property": "C52",
   "status": "proved",
   "theorems": [
    "Adv.Props.C52_shape",
    "Adv.Props.C52_replay",
    "Adv.Props.C52_views_readonly"
   ],
   "note": ""
  },
  {
   "property": "C53",
   "status": "proved",
   "theorems": [
    "Adv.Props.C53_forward_length",
    "Adv.Props.C53_reverse_length"
   ],
   "note": ""
  },
  {
   "property": "C54",
   "status": "proved",
   "theorems": [
    "Adv.Props.C54_recording_append_only",
    "Adv.Props.C54_variables_keep_values"
   ],
   "note": ""
  },
  {
   "property": "C55",
   "status": "proved",
   "theorems": [
    "Adv.Props.C55_elementary_values",
    "Adv.Props.C55_elementary_total",
    "Adv.Props.C55_arithmetic_derivatives",
    "Adv.Props.C55_elementary_derivatives",
    "Adv.Props.C55_abs_increment"
   ],
   "note": ""
  },
  {
   "property": "C56",
   "status": "proved",
   "theorems": [
    "Adv.Props.C56_eval_float_meaning",
    "Adv.Props.C56_eval_meaning",
    "Adv.Props.C56_tape_meaning",
    "Adv.Props.C56_methods_are_programs",
    "Adv.Props.C56_powi_mul_add_are_programs"
   ],
   "note": ""
  },
  {
   "property": "C57",
   "status": "proved",
   "theorems": [
    "Adv.Props.C57_last_seed_wins",
    "Adv.Props.C57_adjoint_iff",
    "Adv.Props.C57_jacobian_reverse_rows",
    "Adv.Props.C57_smooth_generalized_jacobian",
    "Adv.Props.C57_products",
    "Adv.Props.C57_row",
    "Adv.Props.C57_generalized_jacobian"
   ],
   "note": ""
  },
  {
   "property": "C58",
   "status": "proved",
   "theorems": [
    "Adv.Props.C58_replay_is_rerecording",
    "Adv.Props.C58_replay_iff",
    "Adv.Props.C58_branch_counterexample",
    "Adv.Props.C58_constant_counterexample",
    "Adv.Props.C58_observations"
   ],
   "note": ""
  },
  {
   "property": "C59",
   "status": "proved",
   "theorems": [
    "Adv.Props.C59_forward_calls",
    "Adv.Props.C59_closed_form",
    "Adv.Props.C59_optimal",
    "Adv.Props.C59_attained",
    "Adv.Props.C59_two"
   ],
   "note": ""
  },
  {
   "property": "C60",
   "status": "proved",
   "theorems": [
    "Adv.Props.C60_jacobian"
   ],
   "note": ""
  },
  {
   "property": "C61",
   "status": "partial",
   "theorems": [
    "Adv.Props.C61_exists",
    "Adv.Props.C61_all",
    "Adv.Props.C61_every_sign_partial",
    "Adv.Props.C61_inconsistent_signs_counterexample"
   ],
   "note": "Every limiting Jacobian is the result for some bits and some bits give one (C61_exists, C61_all). That every choice of bits gives one is proved for multiplicity at most 1 (C61_every_sign_partial), and at independent kinks in C85; it is false of the code in general (C61_inconsistent_signs_counterexample): the bits of kinks that coincide can be contradictory, then the result is outside of even the convex hull."
  },
  {
   "property": "C62",
   "status": "partial",
   "theorems": [
    "Adv.Props.C62_chain_as_function_partial",
    "Adv.Props.C62_counterexample",
    "Adv.Props.C62_multiplicity_counterexample"
   ],
   "note": "Proved if in the tape of every link and in the tape of the whole chain the abs arguments and the outputs are pairwise distinct variables. False of the code otherwise (C62_counterexample): a variable whose absolute value is taken by two links makes the driver for single functions wrong. The multiplicities can differ (C62_multiplicity_counterexample) and are not claimed."
  },
  {
   "property": "C63",
   "status": "proved",
   "theorems": [
    "Adv.Props.C63_mutual_exclusion",
    "Adv.Props.C63_no_deadlock",
    "Adv.Props.C63_calls_finish",
    "Adv.Props.C63_critical_sections_atomic",
    "Adv.Props.C63_atomic_executions",
    "Adv.Props.C63_recordings_well_formed",
    "Adv.Props.C63_lock_needed",
    "Adv.Props.C63_no_access_after_free",
    "Adv.Props.C63_recordings_append_only",
    "Adv.Props.C63_variables_in_bounds"
   ],
   "note": ""
  },
  {
   "property": "C64",
   "status": "proved",
   "theorems": [
    "Adv.Props.C64_quadratic_error",
    "Adv.Props.C64_generalized_jacobian"
   ],
   "note": ""
  },
  {
   "property": "C65",
   "status": "proved",
   "theorems": [
    "Adv.Props.C65_evaluation",
    "Adv.Props.C65_derivative",
    "Adv.Props.C65_recording",
    "Adv.Props.C65_domain",
    "Adv.Props.C65_replay",
    "Adv.Props.C65_forward",
    "Adv.Props.C65_reverse",
    "Adv.Props.C65_adjoint",
    "Adv.Props.C65_binary",
    "Adv.Props.C65_binary_is_rounded",
    "Adv.Props.C65_ieee",
    "Adv.Props.C65_ieee_is_floating",
    "Adv.Props.C65_branch_counterexample",
    "Adv.Props.C65_jacobian_reverse",
    "Adv.Props.C65_jacobian_forward"
   ],
   "note": ""
  },
  {
   "property": "C66",
   "status": "proved",
   "theorems": [
    "Adv.Props.C66_double_precision",
    "Adv.Props.C66_operation",
    "Adv.Props.C66_evaluation",
    "Adv.Props.C66_recording",
    "Adv.Props.C66_recording_single_assignment",
    "Adv.Props.C66_mixed_single_assignment",
    "Adv.Props.C66_mixed_values",
    "Adv.Props.C66_mixed_replay",
    "Adv.Props.C66_narrowing_counterexample",
    "Adv.Props.C66_replay_counterexample",
    "Adv.Props.C66_replay_error",
    "Adv.Props.C66_adjoint"
   ],
   "note": ""
  },
  {
   "property": "C67",
   "status": "proved",
   "theorems": [
    "Adv.Props.C67_outputs_distinct",
    "Adv.Props.C67_abs_distinct",
    "Adv.Props.C67_no_abs",
    "Adv.Props.C67_outputs_iff",
    "Adv.Props.C67_links",
    "Adv.Props.C67_jacobians_agree",
    "Adv.Props.C67_generalized_jacobian",
    "Adv.Props.C67_chain"
   ],
   "note": ""
  },
  {
   "property": "C68",
   "status": "proved",
   "theorems": [
    "Adv.Props.C68_tapes",
    "Adv.Props.C68_shortest_paths",
    "Adv.Props.C68_network"
   ],
   "note": ""
  },
  {
   "property": "C69",
   "status": "partial",
   "theorems": [
    "Adv.Props.C69_half_with_ties_partial",
    "Adv.Props.C69_half_partial",
    "Adv.Props.C69_half_gradient_partial",
    "Adv.Props.C69_counterexample"
   ],
   "note": "False of the code: calculate_gradient returns one half of the gradient, because every edge weight is a dependent twice and the second seed overwrites the first (C69_counterexample refutes the claim with one road). Proved is the exact relation: the derivative is 2 times the result, for all networks and wherever zero_order is differentiable, which includes all parameters without ties (C69_half_partial, C69_half_gradient_partial); with ties it is the gradient of a function touching zero_order from above (C69_half_with_ties_partial)."
  },
  {
   "property": "C70",
   "status": "proved",
   "theorems": [
    "Adv.Props.C70_record",
    "Adv.Props.C70_training_total",
    "Adv.Props.C70_error",
    "Adv.Props.C70_output",
    "Adv.Props.C70_gradient",
    "Adv.Props.C70_training",
    "Adv.Props.C70_trained_outputs",
    "Adv.Props.C70_exit",
    "Adv.Props.C70_descent",
    "Adv.Props.C70_path"
   ],
   "note": ""
  },
  {
   "property": "C71",
   "status": "proved",
   "theorems": [
    "Adv.Props.C71_run",
    "Adv.Props.C71_descent",
    "Adv.Props.C71_network"
   ],
   "note": ""
  },
  {
   "property": "C72",
   "status": "partial",
   "theorems": [
    "Adv.Props.C72_methods",
    "Adv.Props.C72_values",
    "Adv.Props.C72_recording_truncates",
    "Adv.Props.C72_second_derivatives",
    "Adv.Props.C72_symmetric",
    "Adv.Props.C72_second_derivatives_partial",
    "Adv.Props.C72_power_skips",
    "Adv.Props.C72_counterexample"
   ],
   "note": "Proved for functions without powers (C72_second_derivatives), and with powers if no operand of a power has a dvalue that is zero but has a derivative (C72_second_derivatives_partial). False of the code otherwise (C72_power_skips, C72_counterexample): cos(x).powi(2) at 0. First order data are always right (C72_values). Nested variables cannot be recorded faithfully, since values are truncated (C72_recording_truncates)."
  },
  {
   "property": "C73",
   "status": "partial",
   "theorems": [
    "Adv.Props.C73_levels",
    "Adv.Props.C73_all_orders_partial",
    "Adv.Props.C73_top_partial",
    "Adv.Props.C73_directions_partial",
    "Adv.Props.C73_division_skips",
    "Adv.Props.C73_counterexample",
    "Adv.Props.C73_steady_partial",
    "Adv.Props.C73_steady_top_partial",
    "Adv.Props.C73_two_levels_steady"
   ],
   "note": "Proved for code made of sums, differences, products, sines, cosines and exponentials, for every number of levels (C73_all_orders_partial, C73_top_partial, C73_directions_partial), and for all smooth operations if no executed power skips a derivative (C73_steady_partial, C73_steady_top_partial; with one or two levels only powers can be affected: C73_two_levels_steady). False of the code with divisions from three levels on (C73_division_skips, C73_counterexample): x / exp(x*x) at 0 gives the third derivative -2 instead of -6. Dropping a level is always right (C73_levels)."
  },
  {
   "property": "C74",
   "status": "proved",
   "theorems": [
    "Adv.Props.C74_layout",
    "Adv.Props.C74_size"
   ],
   "note": ""
  },
  {
   "property": "C75",
   "status": "proved",
   "theorems": [
    "Adv.Props.C75_conical",
    "Adv.Props.C75_exists",
    "Adv.Props.C75_every_sign",
    "Adv.Props.C75_directional",
    "Adv.Props.C75_inconsistent_signs_counterexample",
    "Adv.Props.C75_converse_counterexample"
   ],
   "note": ""
  },
  {
   "property": "C76",
   "status": "proved",
   "theorems": [
    "Adv.Props.C76_formula",
    "Adv.Props.C76_sound",
    "Adv.Props.C76_find_t",
    "Adv.Props.C76_binary64_find_t",
    "Adv.Props.C76_binary64_reverse_fold"
   ],
   "note": ""
  },
  {
   "property": "C77",
   "status": "proved",
   "theorems": [
    "Adv.Props.C77_never_wrong",
    "Adv.Props.C77_relations"
   ],
   "note": ""
  },
  {
   "property": "C78",
   "status": "proved",
   "theorems": [
    "Adv.Props.C78_evaluation",
    "Adv.Props.C78_derivative",
    "Adv.Props.C78_recording",
    "Adv.Props.C78_replay",
    "Adv.Props.C78_forward",
    "Adv.Props.C78_reverse",
    "Adv.Props.C78_adjoint",
    "Adv.Props.C78_jacobian_reverse",
    "Adv.Props.C78_jacobian_forward",
    "Adv.Props.C78_ieee_is_machine",
    "Adv.Props.C78_ieee",
    "Adv.Props.C78_domain_counterexample"
   ],
   "note": ""
  },
  {
   "property": "C79",
   "status": "proved",
   "theorems": [
    "Adv.Props.C79_tape",
    "Adv.Props.C79_abs_normal"
   ],
   "note": ""
  },
  {
   "property": "C80",
   "status": "proved",
   "theorems": [
    "Adv.Props.C80_tape",
    "Adv.Props.C80_generalized_jacobian",
    "Adv.Props.C80_kink_counterexample",
    "Adv.Props.C80_chain"
   ],
   "note": ""
  },
  {
   "property": "C81",
   "status": "proved",
   "theorems": [
    "Adv.Props.C81_value_mut_keeps_structure",
    "Adv.Props.C81_value_mut_does_not_change_replays",
    "Adv.Props.C81_recorded_values_not_consistent",
    "Adv.Props.C81_destroyed_context_counterexample"
   ],
   "note": ""
  },
  {
   "property": "C82",
   "status": "proved",
   "theorems": [
    "Adv.Props.C82_results_agree",
    "Adv.Props.C82_composition",
    "Adv.Props.C82_exact"
   ],
   "note": ""
  },
  {
   "property": "C83",
   "status": "partial",
   "theorems": [
    "Adv.Props.C83_multiplicity",
    "Adv.Props.C83_limiting_partial",
    "Adv.Props.C83_limiting_function_partial",
    "Adv.Props.C83_jacobian",
    "Adv.Props.C83_counterexample"
   ],
   "note": "Proved if the multiplicity is at most 1 (C83_limiting_partial, C83_limiting_function_partial) or the kinks are independent (C85_chain); the bound on the multiplicity (C83_multiplicity) and the Jacobian at multiplicity 0 (C83_jacobian) are proved. False of the code otherwise (C83_counterexample): the driver takes the sign -1 at every kink, and for a chain that is constantly zero it returns the slope -2."
  },
  {
   "property": "C84",
   "status": "proved",
   "theorems": [
    "Adv.Props.C84_builds_agree",
    "Adv.Props.C84_chain",
    "Adv.Props.C84_never_wrong"
   ],
   "note": ""
  },
  {
   "property": "C85",
   "status": "proved",
   "theorems": [
    "Adv.Props.C85_consistent_signs",
    "Adv.Props.C85_independent_kinks",
    "Adv.Props.C85_function",
    "Adv.Props.C85_function_itself",
    "Adv.Props.C85_chain"
   ],
   "note": ""
  },
  {
   "property": "C86",
   "status": "proved",
   "theorems": [
    "Adv.Props.C86_every_limit",
    "Adv.Props.C86_derivative",
    "Adv.Props.C86_clarke",
    "Adv.Props.C86_independent_kinks",
    "Adv.Props.C86_single_kink",
    "Adv.Props.C86_model",
    "Adv.Props.C86_expansion",
    "Adv.Props.C86_agreement"
   ],
   "note": ""
  },
  {
   "property": "C87",
   "status": "proved",
   "theorems": [
    "Adv.Props.C87_lipschitz",
    "Adv.Props.C87_semismooth",
    "Adv.Props.C87_semismooth_clarke",
    "Adv.Props.C87_results",
    "Adv.Props.C87_newton",
    "Adv.Props.C87_newton_converges"
   ],
   "note": ""
  },
  {
   "property": "C88",
   "status": "proved",
   "theorems": [
    "Adv.Props.C88_linear",
    "Adv.Props.C88_results",
    "Adv.Props.C88_newton",
    "Adv.Props.C88_newton_converges"
   ],
   "note": ""
  },
  {
   "property": "C89",
   "status": "proved",
   "theorems": [
    "Adv.Props.C89_structure",
    "Adv.Props.C89_finite",
    "Adv.Props.C89_results",
    "Adv.Props.C89_newton"
   ],
   "note": ""
  },
  {
   "property": "C90",
   "status": "proved",
   "theorems": [
    "Adv.Props.C90_links",
    "Adv.Props.C90_results",
    "Adv.Props.C90_newton"
   ],
   "note": ""
  },
  {
   "property": "C91",
   "status": "proved",
   "theorems": [
    "Adv.Props.C91_error_bound",
    "Adv.Props.C91_isolated",
    "Adv.Props.C91_step",
    "Adv.Props.C91_inexact",
    "Adv.Props.C91_chain"
   ],
   "note": ""
  },
  {
   "property": "C92",
   "status": "proved",
   "theorems": [
    "Adv.Props.C92_step",
    "Adv.Props.C92_newton",
    "Adv.Props.C92_chain"
   ],
   "note": ""
  }
 ]
}