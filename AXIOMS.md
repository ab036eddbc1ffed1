# Axioms per theorem

Generated by `tools/mk_axioms.py` from `#print axioms`.

## Classical.choice, Quot.sound, propext (524 theorems)

`C01_output_in_type`, `C01_zero_bits`, `C01_layer_output_in_type`, `C02_representable_unchanged`, `C02_sat_sym_lowest`, `C02_idempotent`, `C03_wrap_is_bit_truncation`, `C03_wrap_trn`, `C04_sat_nearest`, `C04_saturation_values`, `C04_saturating_monotone`, `C05_sat_zero`, `C06_wrap_sm_reflects`, `C07_trn`, `C07_trn_zero`, `C07_nearest`, `C07_RND_comment_wrong`, `C08_no_overflow_same`, `C08_error_bound`, `C08_differ_on_overflow`, `C09_result_t_covers`, `C09_heterogeneous_iff`, `C10_inference_on_grid`, `C10_idempotent`, `C11_inference_total`, `C11_inference_is_standard_round`, `C11_unknown_name_rejected_in_training`, `C11_unknown_name_accepted_in_inference`, `C12_train_equals_inference`, `C12_needs_exact_q_value`, `C13_dual_value`, `C13_training_gradient`, `C13_inference_gradient`, `C13_scale_grad`, `C13_fp_bits`, `C14_stochastic_adjacent`, `C14_unbiased`, `C15_clip_invariant`, `C16_record_is_extrema`, `C16_batching_irrelevant`, `C17_covers`, `C17_covers_pos_only`, `C18_minimal`, `C18_minimal_pos_only`, `C19_untraced_refused`, `C19_reset_then_refused`, `C19_traced_accepted`, `C20_hquantize_eq_proxy`, `C20_iff`, `C21_rounding_absorbed`, `C21_half_lsb`, `C22_one_bitwidth_per_channel`, `C22_per_channel_last`, `C23_masked_iff`, `C23_masked_bias`, `C23_pruned_proxy_zero`, `C23_pruned_hgq_zero`, `C24_iff`, `C24_linear_eq_proxy`, `C24_range_needed`, `C25_relu_eq_proxy`, `C26_in_range`, `C26_bit_accurate`, `C26_trace_minmax`, `C27_activation_iff`, `C27_add_iff`, `C27_activation_eq_proxy`, `C27_add_eq_proxy`, `C28_kernel`, `C28_bias_gap`, `C28_bias_partial`, `C28_bias_agree_iff`, `C28_no_scale_gap`, `C28_moving_mean_converges`, `C28_beta_fails`, `C28_no_center_fails`, `C28_no_scale_fails`, `C29_iff`, `C29_zero_mean_partial`, `C29_fails`, `C29_moving_stats`, `C30_sound`, `C30_minimal`, `C30_unrepresentable_signal`, `C31_float32_iff`, `C31_iff`, `C31_true_bits_partial`, `C31_fails_at_32_bits`, `C31_float32_overcount`, `C31_sound_any_rounding`, `C32_kernel_float32_iff`, `C32_act_bw_partial`, `C32_needs_grid`, `C32_act_bw_relu`, `C32_act_bw_iff`, `C32_act_bw_negative`, `C32_kernel_bw_partial`, `C32_float32_underestimates`, `C33_activation_covers`, `C33_fails_beyond_20_bits`, `C34_avg_pool_error`, `C34_linear_bias_partial`, `C34_subtract_iff`, `C34_avg_pool_iff`, `C34_linear_iff`, `C34_dot_iff`, `C34_concatenate`, `C34_max_pool`, `C34_add`, `C34_subtract_partial`, `C34_subtract_unsigned_fails`, `C34_avg_pool_partial`, `C34_avg_pool_fails`, `C34_dot_partial`, `C34_dot_length_fails`, `C34_dot_signed_fails`, `C34_linear_partial`, `C34_linear_signed_fails`, `C34_linear_bias_fails`, `C35_query_keeps_outputs_partial`, `C35_wrap_same_sign`, `C35_query_idempotent`, `C35_below_resolution_fails`, `C35_unsigned_into_signed_wrap_fails`, `C35_signed_into_unsigned_wrap_fails`, `C35_sat_fails`, `C35_sat_sym_fails`, `C35_heterogeneous_fails`, `C35_heterogeneous_wrap`, `C35_heterogeneous_idempotent`, `C35_covered_unchanged`, `C35_elementwise_wrap`, `C35_elementwise_idempotent`, `C35_pruned`, `C35_pruned_idempotent`, `C35_wrap_iff`, `C35_sat_iff`, `C35_wrap_in_type`, `C35_sat_in_type`, `C35_wrap_trn`, `C35_wrap_rnd`, `C35_sat_negative_width`, `C36_merged_cast_invisible`, `C36_other_exact`, `C37_registered`, `C37_input_cast_invisible`, `C37_input_layer`, `C38_wrap_accumulation_exact`, `C38_order_irrelevant`, `C38_saturating_accumulation_exact`, `C39_kernel_layer`, `C39_activation_layer`, `C39_other_layer`, `C39_unquantized_input_refused`, `C39_unquantized_input_offset_accepted`, `C39_unquantized_activation_accepted`, `C40_roundtrip`, `C40_padded`, `C40_nuke`, `C40_injective`, `C40_decimal`, `C41_lut_is_quantized_activation`, `C41_lut_before_fused_quantizer`, `C42_lut_iff_fits_partial`, `C42_exact`, `C42_crash_at_limit`, `C42_crash_on_zero_width`, `C43_convert_same_function`, `C43_convert_succeeds`, `C43_flatten`, `C44_applied_once`, `C44_only_needed`, `C44_flatten_exactly`, `C44_needed_applied`, `C45_namer`, `C46_settles`, `C46_guard_never_trips`, `C46_fixed_point`, `C47_inference_keeps_ranges_partial`, `C47_no_bops_keeps_recording`, `C48_extends_partial`, `C48_ordinary_first_call`, `C48_rst_false_records_nothing`, `C48_second_call_ignores_data`, `C48_second_call_covers`, `C48_extends_cover_partial`, `C48_cut_twice`, `C49_listed_layers_partial`, `C49_nested_not_traced`, `C49_nested_untouched`, `C49_reset_reaches_nested`, `C50_cover_widens`, `C50_cover_narrows`, `C50_cover_refused`, `C51_float32`, `C51_reused_refused`, `C51_dense`, `C51_conv1d`, `C51_conv2d`, `C51_zero_weights`, `C51_weight_bits`, `C51_dead_inputs`, `C51_nonneg`, `C51_monotone`, `C51_wider_range`, `C51_trace_sum`, `C51_free_bops`, `C51_in_model`, `C52_predictions`, `C52_batch_size`, `C52_empty`, `C53_defaults_partial`, `C53_get_isolated`, `C53_get_fresh`, `C53_layer_gets_copies`, `C54_rounding_partial`, `C54_bad_configuration`, `C54_default_configuration`, `C54_permanent`, `C55_shape`, `C55_known`, `C55_fibers`, `C55_modes`, `C56_record_partial`, `C56_other_dimensions`, `C56_except_1st`, `C56_iff`, `C56_right`, `C57_fixed_point_partial`, `C57_just_below_half`, `C57_floor`, `C57_round_partial`, `C57_round_just_below_half`, `C57_round_bound_sharp`, `C57_fixed_point_iff`, `C57_round_iff`, `C58_any_order`, `C58_types`, `C58_bound_sharp`, `C59_bits`, `C59_bits_floor`, `C59_shared`, `C59_tiny_weight`, `C59_twice`, `C60_wrap_iff`, `C60_quantized_bits`, `C60_quantized_bits_wrap_partial`, `C60_wrap_differs`, `C60_one_bit_differs`, `C60_quantized_relu`, `C60_relu_slope_ignored`, `C60_binary_partial`, `C60_binary_scale_ignored`, `C60_layer`, `C60_activation`, `C60_config`, `C60_config_refused`, `C61_iff`, `C61_channels_first_fails`, `C61_single_bitwidth_partial`, `C61_no_bias_partial`, `C62_iff`, `C62_first_call_fails`, `C62_repeat_call_partial`, `C62_later_calls`, `C62_same_bias_partial`, `C62_no_bias`, `C63_tanh_negative_bits`, `C63_nonneg_bits_partial`, `C63_iff_partial`, `C63_values`, `C64_gap`, `C64_zero_bias_partial`, `C64_bias_fails`, `C64_iff`, `C65_kernel_quantized`, `C65_bias_quantized`, `C65_bias_bitwidth_is_max`, `C66_no_truncation_partial`, `C66_other_rounding_fails`, `C66_other_rounding_input_fails`, `C66_input_sat_zero_fails`, `C66_input_wrap_sm_fails`, `C66_unsigned_into_signed_wrap_fails`, `C66_rounding_iff`, `C66_derived_iff`, `C66_two_extra_bits_iff`, `C66_wrap_iff`, `C67_fused_quantizer`, `C67_fused_iff`, `C68_bias_type_holds_bias_partial`, `C68_fine_bias_fails`, `C68_large_bias_fails`, `C68_iff`, `C69_second_output_lost`, `C69_nested_outputs_partial`, `C69_all_outputs`, `C69_all_outputs_succeeds`, `C69_selected_output`, `C70_flatten_keeps_names_iff_partial`, `C71_model_proxy_agree`, `C71_nested_model_bit_accurate`, `C72_tanh_table`, `C72_sigmoid_table`, `C72_table_full`, `C73_outputs_mixed`, `C73_one_batch_partial`, `C73_result_partial`, `C74_dense`, `C74_conv1d`, `C74_conv2d`, `C74_same_padding`, `C75_layer`, `C75_reshape`, `C75_concat`, `C75_max_pool_partial`, `C75_max_pool_mixed`, `C75_average_pool`, `C75_permute`, `C75_model_partial`, `C75_permute_iff`, `C75_max_pool_dominated`, `C75_max_pool_unsigned_iff`, `C75_average_pool_iff`, `C75_concat_positions`, `C75_pool_bits`, `C75_flatten_first_iff`, `C75_flatten_first`, `C76_float32_partial`, `C76_input_bits`, `C76_train_ge_exact_partial`, `C76_input_bits_relu`, `C76_input_bits_iff`, `C76_input_bits_stale_fails`, `C76_model_float32_partial`, `C76_calibrated_float32_partial`, `C76_model_layer_partial`, `C76_model_partial`, `C76_calibrated_partial`, `C77_estimate_partial`, `C77_rows`, `C77_rows_rectangular`, `C77_iff`, `C78_layer_eq_proxy`, `C78_layer_exact`, `C78_bound_needed`, `C79_settings`, `C79_bn_loads_iff`, `C79_bn_partial`, `C79_bn_epsilon_lost`, `C79_quantizer`, `C79_quantizer_values`, `C79_quantizer_refused`, `C79_quantizer_negative_bits`, `C79_lut`, `C80_outputs`, `C80_conversion_refused`, `C80_retrace_partial`, `C81_fused_dense_readapts`, `C82_accepted`, `C82_plain_partial`, `C82_callable_iff`, `C82_foreign_relu`, `C83_close`, `C83_large_equal_partial`, `C83_range_covers`, `C83_relu_covers_partial`, `C83_differs`, `C83_wasted_bits`, `C83_relu_overflow`, `C84_scores`, `C84_standard`, `C84_average`, `C84_permutation`, `C84_mask`, `C84_all_masked`, `C84_declared_shape`, `C85_history_independent`, `C85_empty_data`, `C85_default_batches`, `C86_value`, `C86_finite_partial`, `C86_unrecorded`, `C86_unrecorded_relu`, `C86_after_reset`, `C87_value`, `C87_gradient`, `C87_pulls_down`, `C87_kernel_stops_iff`, `C87_regularizer`, `C88_value`, `C88_switched_off`, `C88_mean_between`, `C88_var_nonneg`, `C88_layer`, `C88_bad_momentum`, `C89_registration_keeps_function_partial`, `C89_types_history_independent_partial`, `C89_derived_types_hold_partial`, `C89_registration_changes_output`, `C90_only_widths_shrink`, `C90_every_layer_registered_once`, `C90_fails_without_quantizer`, `C91_data_path_exact_partial`, `C91_computed_inputs_exact_partial`, `C91_wrapping_output_changes`, `C92_deployed_partial`, `C92_data_path_partial`, `C92_registration_changes_calibration`, `C92_mild_partial`, `C92_aggressive_all_inputs_partial`, `C92_conservative_outside_changes`, `C93_inference_keeps_ranges_partial`, `C93_recompile_partial`, `C93_compiled_goes_on_recording`, `C93_interrupted`, `C93_compiled_does_not_record`, `C93_exact_keeps`, `C93_exact_records`, `C94_one_fit_step_partial`, `C94_every_fit_step`, `C94_bits_run_to_the_lower_clip`, `C94_weights_vanish`, `C94_fit_bits`, `C94_exact`, `C95_union_members`, `C95_iff`, `C97_transparent_iff_partial`, `C97_outside_changes`, `C97_model_partial`, `C98_bit_accurate`, `C98_in_range`, `C98_exact`, `C98_proxy_exact`, `C98_untraced_refused`, `C98_bound_needed`, `C99_reused_kernel_refused`, `C99_in_range`, `C99_bit_accurate`, `C99_untraced_refused`, `C99_range_exact`, `C100_behind_reused_passive`, `C100_quantizers_partial`, `C100_exact`, `C100_trace_counts`, `C100_behind_reused_concatenation`, `C101_pruned_stays_zero`, `C101_recorded_zero`, `C102_recorded_types`, `C102_limit_is_sharp`, `C102_queries`, `C102_recorded_queries`, `C102_wide_quantizer_fails`, `C103_more_data_ranges`, `C103_same_samples`, `C103_more_data_types`, `C104_saturates`, `C104_linear_saturates`, `C104_relu_saturates`, `C104_wraps`, `C104_linear_wraps`, `C104_aggressive_relu`, `C105_more_bits`, `C105_any_accuracy`, `C105_monotone`, `C105_sat_is_nearest`, `C105_wider_type`, `C105_truncation_worse`, `C106_detects_overflow`, `C106_detects_overflow_aggressive`, `C106_hidden_overflow`, `C106_aggressive_relu`, `C107_nearest_even`, `C107_devices`, `C107_devices_differ`, `C107_quantizer`, `C107_fixed_point`, `C107_underflow`, `C107_calibration`, `C107_bit_accurate`, `C107_in_range`, `C108_error_bound`, `C108_deployed`, `C108_any_accuracy`, `C108_tame`, `C108_discontinuous`, `C109_inference`, `C109_training_is_inference`, `C109_gap`, `C109_stochastic`, `C110_outputs_partial`, `C110_ranges`, `C110_fused_partial`, `C110_fused_iff`, `C110_fused_changes`, `C110_fused_inference_changes`, `C111_quantizer`, `C111_types`, `C111_settles`, `C111_fixed`, `C112_later_entries_partial`, `C112_unshrunk_partial`, `C112_first_entries_differ`, `C113_deployed_after_training`, `C114_bias_added_late`, `C114_layer_iff`, `C114_deployed_is_batch_norm_partial`, `C114_bias_fails`, `C114_no_scale_fails`, `C115_training_ranges_partial`, `C115_beta_fails`, `C115_statistics_fail`, `C115_no_center_fails`, `C115_dropout_fails`, `C116_statistics`, `C116_bounds`, `C117_variables`, `C118_dropout`, `C119_same_values`, `C119_exact`, `C119_train`, `C119_iff`, `C119_same_bops_partial`, `C119_fails`

## Quot.sound, propext (17 theorems)

`C35_wide_upstream_unchanged`, `C45_names_unique`, `C53_wrong_keys`, `C53_wrong_keys_paq`, `C53_set_accepted`, `C55_bad_dimension`, `C60_refused`, `C70_names_kept_partial`, `C74_valid_padding`, `C81_adapted_once`, `C90_storage_location`, `C94_adapted_at_build`, `C94_not_adapted`, `C94_eager_first_partial`, `C94_batchnorm_never_adapts`, `C96_iff`, `C97_save_load`

## propext (12 theorems)

`C22_channels_first_only_scalar`, `C45_first_seen_renamed`, `C53_set_keeps_reference`, `C53_build_changes_defaults`, `C54_shared_with_activation`, `C70_source_renamed`, `C81_interruptions_partial`, `C84_needs_static_shapes`, `C95_same_dispatch_partial`, `C96_restored_partial`, `C96_nested`, `C97_array_types`

## none (3 theorems)

`C21_auto_truncates`, `C84_value_dim`, `C95_lost_registrations`
