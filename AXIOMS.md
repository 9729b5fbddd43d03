# Axioms per property theorem

From `#print axioms` (all theorems are in the namespace `Verif`).

## Classical.choice, Quot.sound, propext

* `C03_slope_value`
* `C04_ofPoints_ok_iff`
* `C04_ofPoints_samples`
* `C04_ofPoints_throws`
* `C06_at_sample_time`
* `C07_at_between_partial`
* `C07_at_last_partial`
* `C07_at_partial`
* `C07_refuted`
* `C08_at_outside_partial`
* `C08_refuted`
* `C09_beginAt`
* `C100_collisions`
* `C100_digits`
* `C100_exact`
* `C100_monotone`
* `C100_short`
* `C100_value`
* `C101_meanings`
* `C101_text_verdict`
* `C102_copy_throws`
* `C102_exact_partial`
* `C102_order_partial`
* `C102_refuted`
* `C102_spacing_partial`
* `C103_resize_resize`
* `C103_shift_resize`
* `C103_shift_simplify`
* `C103_shift_synchronize`
* `C104_dense`
* `C104_max_seq`
* `C104_min_seq`
* `C105_values`
* `C106_search`
* `C106_update`
* `C107_linear`
* `C107_same`
* `C108_crossings`
* `C108_polynomial`
* `C109_counted`
* `C109_nodes`
* `C109_operations`
* `C109_polynomial`
* `C109_rounding`
* `C10_endAt_partial`
* `C10_refuted`
* `C110_always`
* `C110_dead`
* `C110_few`
* `C110_inside`
* `C110_live`
* `C110_only`
* `C110_same`
* `C110_sound`
* `C110_texts`
* `C110_unclosed_false`
* `C111_evaluation`
* `C111_frame`
* `C111_pair`
* `C111_python`
* `C111_repeat`
* `C111_synchronize`
* `C112_null`
* `C112_only`
* `C113_and_throws`
* `C113_evaluation`
* `C113_exact`
* `C113_inputs`
* `C113_or`
* `C113_returned`
* `C113_sequences`
* `C113_signals`
* `C114_common_start`
* `C114_needed`
* `C114_safe`
* `C114_total`
* `C114_unsafe`
* `C115_any_fuel`
* `C115_same`
* `C115_term`
* `C116_halts`
* `C116_no_issues`
* `C116_parse`
* `C116_sound`
* `C117_accepted`
* `C117_enough`
* `C117_needed`
* `C117_no_other`
* `C117_unbounded`
* `C118_action`
* `C118_append`
* `C118_final`
* `C118_name`
* `C118_position`
* `C118_unique`
* `C119_and`
* `C119_or`
* `C119_synchronize`
* `C11_simplify_preserves`
* `C120_accuracy`
* `C120_verdicts`
* `C121_linear`
* `C121_needed`
* `C121_total`
* `C122_file`
* `C122_listing`
* `C122_output`
* `C122_reports`
* `C122_status`
* `C123_ends_partial`
* `C123_refuted`
* `C123_refuted_debug`
* `C123_silent_partial`
* `C124_attributes_partial`
* `C124_operators_partial`
* `C124_refuted_range`
* `C125_and`
* `C125_margin`
* `C125_or`
* `C126_area`
* `C126_simplify`
* `C126_simplify_error`
* `C126_simplify_exact`
* `C126_simplify_idempotent`
* `C126_simplify_underflow`
* `C127_error`
* `C127_linear`
* `C127_ok`
* `C128_between_needed`
* `C128_binary64`
* `C128_grid_needed`
* `C128_satisfied`
* `C128_upper`
* `C128_violated`
* `C129_samples`
* `C129_start`
* `C12_simplify_idempotent`
* `C12_simplify_subsequence`
* `C130_boolean`
* `C130_cosafety`
* `C130_exact`
* `C130_rounding_needed`
* `C130_safety`
* `C130_samples`
* `C130_start`
* `C130_transfer`
* `C131_any`
* `C131_converges`
* `C131_covers`
* `C131_error`
* `C131_not_phi`
* `C131_same`
* `C131_sampling`
* `C132_error`
* `C132_measured`
* `C133_cosafety`
* `C133_safety`
* `C133_sign`
* `C133_until`
* `C134_binary64`
* `C134_boolean`
* `C134_error`
* `C134_rounded`
* `C134_samples`
* `C134_start`
* `C135_binary64`
* `C135_error`
* `C135_improve`
* `C135_resample`
* `C136_indices`
* `C136_update`
* `C136_vector`
* `C137_binary64`
* `C137_future`
* `C137_longer`
* `C138_boolean`
* `C138_boolean_future`
* `C138_future`
* `C138_verdict`
* `C139_error`
* `C139_future`
* `C139_sampling`
* `C13_exactly_partial`
* `C13_refuted`
* `C13_simplify_partial`
* `C140_error`
* `C140_not_text`
* `C140_sampling`
* `C14_exactly_partial`
* `C14_refuted`
* `C14_resize_late`
* `C14_resize_partial`
* `C14_resize_single`
* `C14_resize_throws`
* `C14_resize_throws_fill`
* `C15_shift`
* `C15_shift_add`
* `C15_shift_zero`
* `C16_refuted`
* `C16_synchronize_aligned_partial`
* `C16_synchronize_failures`
* `C16_synchronize_partial`
* `C17_common_times`
* `C18_synchronize_preserves`
* `C19_synchronize_idempotent`
* `C19_synchronize_symmetric`
* `C20_predicate`
* `C21_not_negates`
* `C21_not_not`
* `C22_C23_success`
* `C22_and_is_min`
* `C23_or_is_max`
* `C24_and_nary`
* `C24_or_nary`
* `C24_order_independent`
* `C25_de_morgan`
* `C26_eventually_is_supremum`
* `C27_always_is_infimum`
* `C28_bounds_partial`
* `C28_exact_segments_partial`
* `C28_refuted`
* `C29_duality`
* `C30_monotone`
* `C30_monotone_dense`
* `C31_interval_ignored_partial`
* `C31_long_interval_partial`
* `C31_refuted`
* `C32_exact_partial`
* `C32_refuted`
* `C32_upper_bound_partial`
* `C32_verdict_partial`
* `C32_violation_reported_as_satisfied_partial`
* `C33_refuted`
* `C34_total`
* `C37_constants_partial`
* `C37_refuted`
* `C38_boolean_fragment_exact`
* `C39_safety_sound`
* `C40_cosafety_sound`
* `C41_shift`
* `C43_dominated_partial`
* `C43_late_partial`
* `C43_margin_partial`
* `C43_refuted`
* `C44_and`
* `C44_or`
* `C45_iff`
* `C45_implies`
* `C45_xor`
* `C49_interval_partial`
* `C50_expire`
* `C50_samples`
* `C50_wedge`
* `C50_wedge_failure`
* `C50_wedge_strict`
* `C51_dual_partial`
* `C51_first_window_partial`
* `C51_outcome_partial`
* `C51_refuted_values`
* `C51_refuted_zero`
* `C51_same_partial`
* `C52_terminates`
* `C53_roundtrip`
* `C53_text_exists`
* `C54_built`
* `C54_wellformed`
* `C55_distinct`
* `C55_kept`
* `C55_rejected`
* `C56_undefined`
* `C57_exception_partial`
* `C57_refuted`
* `C57_rejected_partial`
* `C58_last_partial`
* `C58_parens_partial`
* `C58_refuted_one`
* `C58_refuted_parens`
* `C59_collisions_partial`
* `C59_injective_partial`
* `C59_interval_partial`
* `C59_intervals_partial`
* `C59_parsed_partial`
* `C59_refuted_interval`
* `C59_refuted_name`
* `C59_refuted_robustness`
* `C59_refuted_until`
* `C61_samples_exact`
* `C61_start_exact`
* `C62_cosafety_margin`
* `C62_lipschitz`
* `C62_safety_margin`
* `C62_start_margin`
* `C63_operators`
* `C63_sample_count`
* `C64_no_error_at_samples`
* `C65_always`
* `C65_eventually`
* `C66_debug_partial`
* `C66_flag_partial`
* `C66_pair_partial`
* `C66_refuted`
* `C66_same_size_partial`
* `C67_idempotent`
* `C68_refuted`
* `C68_samples_partial`
* `C69_units`
* `C70_presynchronized_partial`
* `C70_refuted`
* `C70_resample_partial`
* `C71_area`
* `C71_integral`
* `C72_binary64_order`
* `C72_intersect`
* `C72_parallel`
* `C73_constants`
* `C73_distinguished`
* `C74_amortized`
* `C74_update`
* `C75_constant_refuted`
* `C75_future`
* `C75_same_future`
* `C76_improvement_partial`
* `C76_refuted`
* `C77_order`
* `C77_rename`
* `C78_end_to_end`
* `C78_meaning`
* `C79_longer_partial`
* `C79_refuted`
* `C80_error`
* `C80_sharp`
* `C80_start`
* `C81_converges`
* `C81_sampling`
* `C82_documented`
* `C82_exact`
* `C82_meaning`
* `C82_rejected`
* `C82_unambiguous`
* `C83_construct_partial`
* `C83_refuted`
* `C83_sequence_partial`
* `C84_refuted`
* `C85_calls`
* `C85_count`
* `C85_exponential_partial`
* `C85_family`
* `C85_linear_partial`
* `C85_refuted`
* `C86_chain`
* `C86_correctly_rounded`
* `C86_verdicts`
* `C87_equations`
* `C87_inequalities`
* `C87_value`
* `C88_crossings`
* `C88_range`
* `C88_samples_kept`
* `C89_always_and_partial`
* `C89_always_or`
* `C89_eventually_and`
* `C89_eventually_or_partial`
* `C89_final`
* `C89_refuted`
* `C90_left_partial`
* `C90_refuted`
* `C90_right_partial`
* `C91_exact_partial`
* `C91_refuted`
* `C91_rounded_partial`
* `C92_after`
* `C92_before`
* `C92_ends`
* `C92_replace`
* `C92_same`
* `C92_squeezed`
* `C93_assertions`
* `C93_constructed`
* `C93_exceptions`
* `C93_flag`
* `C93_missing`
* `C94_accepted_partial`
* `C94_builds_partial`
* `C94_documented_exceptions_partial`
* `C94_documented_partial`
* `C94_exceptions_partial`
* `C94_local_partial`
* `C94_refuted_builds`
* `C94_refuted_exceptions`
* `C95_read_back`
* `C95_separately`
* `C96_common_name`
* `C96_concatenate`
* `C96_inline`
* `C96_inline_release`
* `C96_rename`
* `C96_swap`
* `C96_unused`
* `C97_margin`
* `C97_other`
* `C97_relax`
* `C97_thresholds`
* `C97_until`
* `C98_and`
* `C98_or`
* `C98_spacing`
* `C98_unsound`
* `C99_accuracy`
* `C99_margin_needed`
* `C99_verdicts`

## Quot.sound, propext

* `C01_times_increasing`
* `C02_pushBack_accepts`
* `C02_pushBack_agrees`
* `C02_pushBack_appends`
* `C02_pushBack_rejects`
* `C03_derivatives_are_slopes`
* `C03_derivatives_ofPoints`
* `C03_derivatives_ofSamples`
* `C05_copy`
* `C05_copy_history`
* `C102_other_partial`
* `C103_resize_shift`
* `C104_access`
* `C104_empty`
* `C109_same`
* `C111_alias`
* `C111_members`
* `C116_idle_loop`
* `C116_left_recursion`
* `C121_slow`
* `C122_what`
* `C124_compare_partial`
* `C124_refuted`
* `C136_both`
* `C136_enumerate`
* `C136_reversed`
* `C14_resize_empty`
* `C30_idempotent`
* `C33_interval_ignored_partial`
* `C35_missing_signal`
* `C36_depends_only_on_used_signals`
* `C36_flag_ignored`
* `C42_robustness_well_formed`
* `C44_nodes`
* `C44_not`
* `C46_andOp_partial`
* `C46_iff_partial`
* `C46_implies_partial`
* `C46_orOp_partial`
* `C46_refuted`
* `C46_xor_partial`
* `C47_arity`
* `C48_and`
* `C48_or`
* `C49_refuted`
* `C49_values`
* `C49_values_exact`
* `C60_signal`
* `C60_signal_points`
* `C72_indexed`
* `C73_equivalence`
* `C73_same_robustness`
* `C74_total`
* `C83_attributes_partial`
* `C84_nan_partial`
* `C84_order_partial`
* `C93_builds`
* `C93_timestamps`

## propext

* `C74_log_literal_refuted`
