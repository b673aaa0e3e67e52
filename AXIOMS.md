# Axioms per theorem

Output of `#print axioms` for the theorems of MANIFEST.json, written by `tools/axioms.py`.

## none (1 theorems)

* `PDP.Backend.C39_spark_sample_two_values`

## propext (10 theorems)

* `PDP.C13_non_interference_linf`
* `PDP.C13_non_interference_no_bounding`
* `PDP.Engine.C19_beam_merge_is_reduce`
* `PDP.Validation.C26_rejection_is_value_error`
* `PDP.Backend.C37_suffixes_may_collide`
* `PDP.Backend.C38_in_memory`
* `PDP.Private.C50_combine_fn`
* `PDP.Analysis.Config.C55_empty_strategies`
* `PDP.Backend.C78_beam_reduce`
* `PDP.Backend.C78_beam_loop_iff`

## Quot.sound, propext (46 theorems)

* `PDP.C13_non_interference_cross_and_per`
* `PDP.C13_non_interference_per_id`
* `PDP.C13_non_interference_cross`
* `PDP.Engine.C19_merge_tree_independent`
* `PDP.Validation.C26_percentile_unbounded_with_vector_sum`
* `PDP.Backend.C37_label_of_request`
* `PDP.Backend.C38_generator_loses_rows`
* `PDP.Backend.C39_spark_sample`
* `PDP.C39_local_backend_lawful`
* `PDP.Backend.C40_group_of_generator`
* `PDP.Private.C49_lineage`
* `PDP.Private.C50_beam`
* `PDP.Private.C50_spark`
* `PDP.Private.C50_beam_faithful_iff`
* `PDP.Private.C50_spark_faithful_iff`
* `PDP.Private.C50_select`
* `PDP.Private.C50_beam_weight_effect`
* `PDP.Private.C50_single_metric`
* `PDP.Private.C50_extracted_ids`
* `PDP.Private.C50_combine_per_key_iff`
* `PDP.Engine.AddNoise.C54_accepted_parameters`
* `PDP.Analysis.Config.C55_mixed_bounds`
* `PDP.Analysis.Reports.C56_bucket_bounds`
* `PDP.Analysis.Reports.C56_pack_refused`
* `PDP.Backend.C57_key_by`
* `PDP.Backend.C57_collect_to_container`
* `PDP.Backend.C57_collect_to_container_missing`
* `PDP.Engine.Report.C59_aggregate_stages`
* `PDP.Engine.Report.C59_bounding_stages`
* `PDP.Engine.Report.C59_cross_bounding_unreported`
* `PDP.Engine.Report.C59_before_budget`
* `PDP.Engine.Report.C59_selection_line`
* `PDP.Backend.C77_spark_backend_lawful`
* `PDP.Backend.C77_spark_combine_lawful`
* `PDP.Backend.C77_spark_key_local`
* `PDP.Backend.C78_beam_combine`
* `PDP.Engine.C81_at_most_one_row_per_partition`
* `PDP.Engine.C81_filtered_data_reads_once`
* `PDP.Serialise.C82_results_arrive_unchanged`
* `PDP.Serialise.C82_one_type_per_process`
* `PDP.Serialise.C82_copy_is_equal`
* `PDP.Serialise.C82_copies_use_the_same_mechanism`
* `PDP.Serialise.C82_copy_knows_the_budget_of_its_moment`
* `PDP.Serialise.C82_original_follows_the_accountant`
* `PDP.Histogram.C85_equal_iff`
* `PDP.Histogram.C85_equality_is_an_equivalence`

## Classical.choice, Quot.sound, propext (457 theorems)

* `PDP.Budget.C01_epsilon_conserved`
* `PDP.Budget.C01_epsilon_never_exceeded`
* `PDP.Budget.C01_epsilon_proportional_to_weight`
* `PDP.Budget.C02_delta_conserved`
* `PDP.Budget.C02_delta_never_exceeded`
* `PDP.Budget.C03_no_budget_before_compute`
* `PDP.Budget.C03_budget_final_after_compute`
* `PDP.Budget.C03_compute_publishes`
* `PDP.Budget.C03_compute_inside_scope_is_fatal`
* `PDP.Budget.C03_rejected_request_has_no_effect`
* `PDP.Budget.C03_request_rejected_iff`
* `PDP.Budget.C04_scopes_divide_top_down`
* `PDP.Budget.C04_scope_gets_its_weight`
* `PDP.Budget.C04_counts_break_scope_shares`
* `PDP.Budget.C05_restrictions_enforced`
* `PDP.Budget.C05_announced_epsilon_is_granted`
* `PDP.Budget.C05_announced_delta_can_be_wrong`
* `PDP.Budget.Pld.C06_search_sound`
* `PDP.Budget.Pld.C06_search_tight`
* `PDP.Budget.Pld.C06_search_terminates_iff`
* `PDP.Budget.Pld.C06_search_deterministic`
* `PDP.Budget.Pld.C07_pure_dp_noise_spends_total`
* `PDP.Budget.Pld.C07_common_noise_level`
* `PDP.Budget.Pld.C07_generic_accounted_iff`
* `PDP.Budget.Pld.C07_laplace_accounted`
* `PDP.Budget.Pld.C07_composition_is_of_the_granted_mechanisms`
* `PDP.Budget.Pld.C07_generic_delta_share`
* `PDP.Budget.Pld.C07_leading_thresholding_not_accounted`
* `PDP.Budget.Pld.C07_later_thresholding_repeats`
* `PDP.Budget.Pld.C07_generic_weights_overspend`
* `PDP.C08_cross_and_per_partition_bounded`
* `PDP.C08_output_per_id_bounded`
* `PDP.C09_total_contributions_bounded`
* `PDP.C10_cross_partition_bounded`
* `PDP.C11_linf_sampler`
* `PDP.C11_no_bounding_keeps_every_row`
* `PDP.C12_within_bounds_lossless_cross_and_per`
* `PDP.C12_within_bounds_lossless_per_id`
* `PDP.C12_within_bounds_lossless_cross`
* `PDP.C12_within_bounds_lossless_linf`
* `PDP.Engine.C14_count_sensitivity`
* `PDP.Engine.C14_compute_sensitivities_count`
* `PDP.Engine.C15_privacy_id_count_sensitivity`
* `PDP.Engine.C15_compute_sensitivities_privacy_id_count`
* `PDP.Engine.C16_sum_per_value_sensitivity`
* `PDP.Engine.C16_sum_per_partition_sensitivity`
* `PDP.Engine.C16_zero_bounds_rejected`
* `PDP.Engine.C16_compute_sensitivities_sum`
* `PDP.Engine.C16_partition_bounds_need_partition_limits`
* `PDP.Engine.C16_per_partition_clipping_broken_if_enforced`
* `PDP.Engine.C17_mean_normalized_sum_sensitivity`
* `PDP.Engine.C17_mean_count_sensitivity`
* `PDP.Engine.C17_variance_count_and_sum_sensitivity`
* `PDP.Engine.C17_variance_squares_sensitivity`
* `PDP.Engine.C17_variance_squares_not_covered`
* `PDP.Engine.C18_user_accumulator`
* `PDP.Engine.C18_clipped_vector_is_in_ball`
* `PDP.Engine.C18_l0_norm_rejected`
* `PDP.Engine.C18_one_user_exceeds_declared_sensitivity`
* `PDP.Engine.C18_public_partitions_always_fail`
* `PDP.Engine.C19_builtin_combiners_order_free`
* `PDP.Engine.C20_compound_merges_componentwise`
* `PDP.Engine.C20_row_count_counts_pairs`
* `PDP.Engine.C21_released_names_are_the_requested_metrics`
* `PDP.Engine.C21_each_budget_is_used_once`
* `PDP.Engine.C21_each_combiner_gets_its_mechanism`
* `PDP.Engine.C22_mean_without_noise`
* `PDP.Engine.C22_mean_of_empty_partition`
* `PDP.Engine.C22_variance_without_noise`
* `PDP.Engine.C22_variance_of_empty_partition`
* `PDP.Engine.C22_mean_from_noisy_values`
* `PDP.Engine.C22_variance_from_noisy_values`
* `PDP.Engine.C22_variance_of_a_point`
* `PDP.EndToEnd.C23_thresholding_decides_public_partitions`
* `PDP.Engine.C23_public_partitions_are_the_output`
* `PDP.Engine.C24_no_selection_if_thresholding_or_filtered`
* `PDP.Engine.C24_released_only_if_selected`
* `PDP.Engine.C25_select_partitions`
* `PDP.Validation.C26_accepted_iff_documented`
* `PDP.Validation.C26_accepted_bounds_are_valid`
* `PDP.Validation.C26_aggregate_accepts_iff`
* `PDP.Validation.C26_thresholding_excludes_enforced_bounds`
* `PDP.Validation.C26_accountant_compatibility`
* `PDP.Validation.C27_entry_points_accept_iff_valid`
* `PDP.Validation.C27_accountant_accepts_iff`
* `PDP.Validation.C27_nan_is_accepted`
* `PDP.Validation.C27_add_dp_noise_params`
* `PDP.Validation.C28_split_conserves_budget`
* `PDP.Validation.C28_parts_are_equal`
* `PDP.PrivateBounds.C29_exponential_mechanism_is_dp`
* `PDP.PrivateBounds.C29_probabilities`
* `PDP.PrivateBounds.C29_higher_score_higher_probability`
* `PDP.PrivateBounds.C29_monotonicity_matters`
* `PDP.PrivateBounds.C30_score_sensitivity`
* `PDP.PrivateBounds.C30_private_bound_is_dp`
* `PDP.PrivateBounds.C30_range`
* `PDP.PrivateBounds.C30_score_is_documented`
* `PDP.PrivateBounds.C30_underflow`
* `PDP.Histogram.C31_possible_bounds`
* `PDP.Histogram.C31_candidates_are_bin_lowers`
* `PDP.Histogram.C31_candidates_nonempty_iff`
* `PDP.Histogram.C32_bins_partition_integers`
* `PDP.Histogram.C32_bin_width`
* `PDP.Histogram.C33_frequency_histogram`
* `PDP.Histogram.C33_independent_of_backend`
* `PDP.Histogram.C33_additions_are_of_equal_bins`
* `PDP.Histogram.C33_dataset_histograms`
* `PDP.Histogram.C34_quantiles`
* `PDP.Histogram.C34_rejected`
* `PDP.Histogram.C34_negative_quantile_fails`
* `PDP.Histogram.C34_monotone`
* `PDP.Histogram.C34_quantile_of_data`
* `PDP.Histogram.C35_ratios_are_exact`
* `PDP.Histogram.C35_shape`
* `PDP.Histogram.C35_empty`
* `PDP.Histogram.C36_preaggregated_histograms`
* `PDP.Histogram.C36_preaggregated_equals_raw`
* `PDP.Histogram.C36_exact_reciprocals`
* `PDP.Histogram.C36_preaggregate`
* `PDP.Histogram.C36_sum_histograms`
* `PDP.Backend.C37_labels_distinct`
* `PDP.Backend.C37_fuel_is_irrelevant`
* `PDP.Backend.C37_suffixes_separate_backends`
* `PDP.Backend.C38_beam_join`
* `PDP.Backend.C38_spark_join`
* `PDP.Backend.C38_spark_join_correct_iff`
* `PDP.Backend.C38_generator_keeps_one_row_per_listing`
* `PDP.Backend.C39_spark_sample_zero`
* `PDP.Backend.C39_spark_sample_is_not_uniform`
* `PDP.Backend.C39_spark_sample_prefers_last`
* `PDP.Backend.C40_count_never_too_large`
* `PDP.Backend.C40_count_exact_without_sharing`
* `PDP.Backend.C40_count_loses_updates`
* `PDP.Backend.C40_count_of_generator`
* `PDP.Backend.C40_group_exact`
* `PDP.Backend.C40_sample_exact`
* `PDP.Backend.C41_rounding`
* `PDP.Backend.C41_monotone`
* `PDP.Backend.C41_ends`
* `PDP.Backend.C41_deterministic`
* `PDP.Backend.C41_kept_fraction`
* `PDP.Analysis.C42_pmf`
* `PDP.Analysis.C42_is_distribution`
* `PDP.Analysis.C42_order`
* `PDP.Analysis.C42_moments`
* `PDP.Analysis.C43_probability`
* `PDP.Analysis.C43_sum`
* `PDP.Analysis.C43_sum_parts`
* `PDP.Analysis.C43_count`
* `PDP.Analysis.C43_privacy_id_count`
* `PDP.Analysis.C44_metrics`
* `PDP.Analysis.C44_merge_independence`
* `PDP.Analysis.C44_multi_column_empty_partition`
* `PDP.Analysis.C44_selection_needs_users`
* `PDP.Analysis.C44_multi_column_order_dependent`
* `PDP.Analysis.C45_average`
* `PDP.Analysis.C45_partitions`
* `PDP.Analysis.C45_errors`
* `PDP.Analysis.C45_error_parts`
* `PDP.Analysis.C45_l1_is_zero`
* `PDP.Analysis.C45_accounting`
* `PDP.Analysis.C45_accounting_iff`
* `PDP.Analysis.C45_accounting_count`
* `PDP.Analysis.C45_accounting_wrong`
* `PDP.Analysis.C45_relative_rmse_sign`
* `PDP.Analysis.C45_size_weight`
* `PDP.Analysis.Tuning.C46_relative_step`
* `PDP.Analysis.Tuning.C46_relative_step_assert`
* `PDP.Analysis.Tuning.C46_subsample`
* `PDP.Analysis.Tuning.C46_nonpositive_bound`
* `PDP.Analysis.Tuning.C46_sum_bounds`
* `PDP.Analysis.Tuning.C46_configuration`
* `PDP.Analysis.Tuning.C46_partitions_not_tuned`
* `PDP.Analysis.Tuning.C46_multi_column_failure`
* `PDP.Analysis.Tuning.C46_succeeds`
* `PDP.Analysis.Tuning.C46_best`
* `PDP.Analysis.Tuning.C46_best_none`
* `PDP.Analysis.Strategy.C47_valid`
* `PDP.Analysis.Strategy.C47_strategy`
* `PDP.Analysis.Strategy.C47_laplace_without_delta`
* `PDP.Analysis.Strategy.C47_linf_irrelevant`
* `PDP.Analysis.Strategy.C47_configurations`
* `PDP.Analysis.Strategy.C47_share_gap`
* `PDP.Analysis.Strategy.C47_fixed_noise_ignored`
* `PDP.Analysis.PublicSummary.C48_summary`
* `PDP.Analysis.PublicSummary.C48_duplicates`
* `PDP.Private.C49_neighbours`
* `PDP.Private.C50_combine_fn_inputs`
* `PDP.DataFrame.C51_calls`
* `PDP.DataFrame.C51_build_iff`
* `PDP.DataFrame.C51_query`
* `PDP.DataFrame.C51_extract`
* `PDP.DataFrame.C51_run`
* `PDP.DataFrame.C51_engine_parameters`
* `PDP.DataFrame.C51_shape`
* `PDP.DataFrame.C51_one_element_list`
* `PDP.Histogram.C52_bucket_contains_value`
* `PDP.Histogram.C52_buckets_tile`
* `PDP.Histogram.C52_clamped`
* `PDP.Histogram.C52_sum_histograms`
* `PDP.Histogram.C52_totals`
* `PDP.Histogram.C52_flat_values_contiguous`
* `PDP.Histogram.C52_contiguous_after_sum`
* `PDP.Histogram.C52_dataset_sum_histograms`
* `PDP.Histogram.C52_independent_of_backend`
* `PDP.Histogram.C53_estimated_ratio`
* `PDP.Histogram.C53_estimate_is_antitone`
* `PDP.Histogram.C53_table_of_histogram`
* `PDP.Histogram.C53_estimate_vs_exact`
* `PDP.Histogram.C53_empty_histogram_fails`
* `PDP.Histogram.C53_rmse_bounds`
* `PDP.Histogram.C53_noise_scaling`
* `PDP.Histogram.C53_estimate_rmse`
* `PDP.Histogram.C53_linf_is_required`
* `PDP.Histogram.C53_created_iff`
* `PDP.Histogram.C53_noise_is_that_of_the_engine`
* `PDP.Histogram.C53_estimate_for_dataset`
* `PDP.Histogram.C53_negative_sums`
* `PDP.Histogram.C53_zero_total_sum`
* `PDP.Histogram.C53_sum_estimator`
* `PDP.Engine.AddNoise.C54_one_mechanism`
* `PDP.Engine.AddNoise.C54_noise_once`
* `PDP.Engine.AddNoise.C54_needs_budget`
* `PDP.Engine.AddNoise.C54_weight_ignored`
* `PDP.Engine.AddNoise.C54_failed_call_charged`
* `PDP.Analysis.Config.C55_lengths`
* `PDP.Analysis.Config.C55_element`
* `PDP.Analysis.Config.C55_all`
* `PDP.Analysis.Reports.C56_buckets`
* `PDP.Analysis.Reports.C56_pack`
* `PDP.Analysis.Reports.C56_reports`
* `PDP.Backend.C57_min_max_per_key`
* `PDP.Backend.C57_size`
* `PDP.Backend.C57_sharded_filter_local`
* `PDP.Backend.C57_sharded_filter`
* `PDP.Backend.C57_sharded_filter_spark`
* `PDP.Engine.Mechanism.C58_accepted_iff`
* `PDP.Engine.Mechanism.C58_derived`
* `PDP.Engine.Mechanism.C58_calibrated`
* `PDP.Engine.Mechanism.C58_missing`
* `PDP.Engine.Mechanism.C58_absolute_tolerance`
* `PDP.Engine.Mechanism.C58_laplace_privacy_loss`
* `PDP.Engine.Mechanism.C58_thresholding`
* `PDP.Engine.Report.C59_reports`
* `PDP.Engine.Report.C59_cross_and_per_lines_name_the_larger_number`
* `PDP.Engine.Report.C59_per_partition_line_names_the_larger_number`
* `PDP.Engine.Report.C59_user_line_is_right`
* `PDP.EndToEnd.C60_pipeline_is_differentially_private`
* `PDP.EndToEnd.C60_pipeline_density_ratio`
* `PDP.EndToEnd.C60_supported_pipeline_runs`
* `PDP.EndToEnd.C61_public_listings_add_to_sums`
* `PDP.EndToEnd.C61_public_sum_exact_iff`
* `PDP.Engine.C61_count_is_exact`
* `PDP.Engine.C61_sum_is_exact`
* `PDP.Engine.C61_mean_is_exact`
* `PDP.Engine.C61_variance_is_exact`
* `PDP.Engine.C61_privacy_id_count_is_exact`
* `PDP.Engine.C61_sum_per_partition_is_exact`
* `PDP.Engine.C61_vector_sum_is_exact`
* `PDP.EndToEnd.C62_aggregate_releases_the_kept`
* `PDP.EndToEnd.C62_select_releases_the_kept`
* `PDP.EndToEnd.C62_everything_is_observed`
* `PDP.EndToEnd.C62_pipeline_is_differentially_private`
* `PDP.EndToEnd.C62_supported_pipeline_runs`
* `PDP.EndToEnd.C63_each_call_gets_its_share`
* `PDP.EndToEnd.C63_requested_metrics_are_released`
* `PDP.EndToEnd.C63_weight_shifts_selection`
* `PDP.EndToEnd.C63_pipeline_releases_what_is_documented`
* `PDP.EndToEnd.C63_budget_shares`
* `PDP.Analysis.C64_local_backend_is_uniform`
* `PDP.Analysis.C64_local_executions_exist`
* `PDP.Analysis.C64_metrics_of_the_data`
* `PDP.Analysis.C64_errors_predicted`
* `PDP.Analysis.C64_selection_probability`
* `PDP.Analysis.C64_unsampled_public_partition_looks_empty`
* `PDP.Analysis.C64_metrics_of_preaggregated_data`
* `PDP.Analysis.C64_preaggregated_like_raw`
* `PDP.Analysis.C64_preaggregated_public_partitions_differ`
* `PDP.Analysis.C65_analysis_report`
* `PDP.Analysis.C65_rejected`
* `PDP.Analysis.C65_sum_needs_bounds_on_sums`
* `PDP.Analysis.C65_needs_partitions_bound`
* `PDP.Analysis.C65_empty_strategies_fail`
* `PDP.Analysis.C65_value_bounds_hide_sum_bounds`
* `PDP.Analysis.C65_configuration_budget`
* `PDP.Analysis.C65_configuration_spends_the_budget`
* `PDP.Analysis.C65_noise_is_that_of_the_engine`
* `PDP.Analysis.C65_selection_is_that_of_the_engine`
* `PDP.Analysis.C65_weight_is_ignored`
* `PDP.EndToEnd.C66_chosen_bound_and_pipeline_are_dp`
* `PDP.EndToEnd.C66_choice_is_not_counted`
* `PDP.EndToEnd.C67_pld_pipeline_is_differentially_private`
* `PDP.EndToEnd.C67_pld_accepted_calls`
* `PDP.EndToEnd.C67_pld_pipeline_runs`
* `PDP.EndToEnd.C67_pld_thresholding_fails`
* `PDP.EndToEnd.C67_pld_attribute_error`
* `PDP.EndToEnd.C67_pld_requests`
* `PDP.EndToEnd.C68_adaptive_pipeline_is_differentially_private`
* `PDP.EndToEnd.C68_later_rounds_use_released_partitions`
* `PDP.EndToEnd.C68_supported_program_runs`
* `PDP.EndToEnd.C68_everything_is_observed`
* `PDP.Analysis.Normal.C69_certain`
* `PDP.Analysis.Normal.C69_is_distribution`
* `PDP.Analysis.Normal.C69_density_moments`
* `PDP.Analysis.Normal.C69_entries`
* `PDP.Analysis.Normal.C69_range`
* `PDP.Analysis.Normal.C69_range_only`
* `PDP.Analysis.Normal.C69_keep_sum`
* `PDP.Analysis.Normal.C69_keep_probability`
* `PDP.Analysis.Normal.C69_tails`
* `PDP.Analysis.Normal.C69_mass_missing`
* `PDP.EndToEnd.C70_programs_are_differentially_private`
* `PDP.EndToEnd.C70_valid_programs_run`
* `PDP.EndToEnd.C70_aggregate`
* `PDP.EndToEnd.C70_select`
* `PDP.EndToEnd.C70_everything_is_observed`
* `PDP.EndToEnd.C71_groups`
* `PDP.EndToEnd.C71_changed_data`
* `PDP.EndToEnd.C71_several_accountants`
* `PDP.Frames.C72_query_is_differentially_private`
* `PDP.Frames.C72_several_queries`
* `PDP.Frames.C72_bad_arguments`
* `PDP.Frames.C72_what_is_computed`
* `PDP.Frames.C72_everything_is_observed`
* `PDP.EndToEnd.C73_mixed_pipeline_is_differentially_private`
* `PDP.EndToEnd.C73_supported_pipeline_runs`
* `PDP.EndToEnd.C73_noise_is_add_dp_noise`
* `PDP.EndToEnd.C73_calls_only`
* `PDP.EndToEnd.C73_everything_is_observed`
* `PDP.EndToEnd.C74_example_count_is_private`
* `PDP.EndToEnd.C74_reused_object_breaks_privacy`
* `PDP.EndToEnd.C74_supported_pipeline_runs`
* `PDP.EndToEnd.C74_empty_list_is_rejected`
* `PDP.EndToEnd.C74_requests`
* `PDP.EndToEnd.C74_each_combiner_uses_its_own_budgets`
* `PDP.EndToEnd.C74_outputs`
* `PDP.EndToEnd.C74_steps_only`
* `PDP.EndToEnd.C74_everything_is_observed`
* `PDP.EndToEnd.C74_custom_pipeline_is_differentially_private`
* `PDP.EndToEnd.C75_supported_pipeline_runs`
* `PDP.EndToEnd.C75_repeated_percentile_is_rejected`
* `PDP.EndToEnd.C75_percentiles_share_one_request`
* `PDP.EndToEnd.C75_outputs`
* `PDP.EndToEnd.C75_without_percentiles`
* `PDP.EndToEnd.C75_everything_is_observed`
* `PDP.EndToEnd.C75_percentile_pipeline_is_differentially_private`
* `PDP.Analysis.Tune.C76_tune`
* `PDP.Analysis.Tune.C76_candidates`
* `PDP.Analysis.Tune.C76_partitions_not_tuned`
* `PDP.Analysis.Tune.C76_minimised_metric`
* `PDP.Analysis.Tune.C76_dropped_is_perfect`
* `PDP.Analysis.Tune.C76_no_partition`
* `PDP.Analysis.Tune.C76_rejected`
* `PDP.EndToEnd.C77_spark_single_rows_private`
* `PDP.EndToEnd.C77_spark_sampling_breaks_privacy`
* `PDP.Backend.C78_beam_sum`
* `PDP.Backend.C78_beam_loses_falsy`
* `PDP.Backend.C78_beam_ops_lawful`
* `PDP.Backend.C78_spark_ops_lawful`
* `PDP.EndToEnd.C79_loss_is_attained`
* `PDP.EndToEnd.C79_private_iff`
* `PDP.EndToEnd.C79_large_norms_are_not_private`
* `PDP.EndToEnd.C79_vector_pipeline_is_differentially_private`
* `PDP.EndToEnd.C79_same_sums`
* `PDP.EndToEnd.C79_same_release`
* `PDP.EndToEnd.C79_same_requests`
* `PDP.EndToEnd.C79_vector_sum_is_private`
* `PDP.EndToEnd.C79_actual_loss`
* `PDP.EndToEnd.C80_loss_of_one_user`
* `PDP.EndToEnd.C80_defects_break_privacy`
* `PDP.EndToEnd.C80_private_exactly_without_defects`
* `PDP.EndToEnd.C80_promised_epsilon_is_attained`
* `PDP.EndToEnd.C80_unselected_partitions_reveal_users`
* `PDP.EndToEnd.C81_generator_reveals_users`
* `PDP.Engine.C81_complete_iff_rows_in_listed_order`
* `PDP.Engine.C81_foreign_row_ends_the_input`
* `PDP.EndToEnd.C83_evaluable_calls_run`
* `PDP.EndToEnd.C83_other_calls_release_nothing`
* `PDP.EndToEnd.C83_other_public_calls_fail`
* `PDP.EndToEnd.C83_evaluable_percentile_calls_run`
* `PDP.EndToEnd.C83_other_percentile_calls_release_nothing`
* `PDP.EndToEnd.C83_other_public_percentile_calls_fail`
* `PDP.EndToEnd.C84_thresholded_public_partitions_are_private`
* `PDP.EndToEnd.C84_dropping_empty_partitions_suffices`
* `PDP.Histogram.C85_equal_histograms_answer_equally`
* `PDP.Histogram.C85_equal_count_histograms`
* `PDP.Histogram.C85_equal_iff_same_small_numbers`
* `PDP.Histogram.C85_minimum_is_not_compared`
* `PDP.EndToEnd.C86_adaptive_noise_is_differentially_private`
* `PDP.EndToEnd.C86_later_rounds_use_released_partitions`
* `PDP.EndToEnd.C86_supported_program_runs`
* `PDP.EndToEnd.C86_everything_is_observed`
* `PDP.EndToEnd.C86_calls_only`
* `PDP.EndToEnd.C86_unselected_partitions_are_revealed`
* `PDP.Engine.Readable.C87_lines_show_parameters`
* `PDP.Engine.Readable.C87_text_determines_parameters`
* `PDP.Engine.Readable.C87_select_partitions_text`
* `PDP.Engine.Readable.C87_add_dp_noise_text`
* `PDP.Engine.Readable.C87_text_tells_the_operation`
* `PDP.Engine.Readable.C87_other_lines_show_parameters`
* `PDP.Engine.Readable.C87_text_begins_with_the_class`
* `PDP.DataFrame.C88_query_succeeds_iff`
* `PDP.DataFrame.C88_rows`
* `PDP.DataFrame.C88_errors`
* `PDP.DataFrame.C88_shaped_keys_stay_apart`
* `PDP.DataFrame.C88_long_keys_are_merged`
* `PDP.EndToEnd.C89_session_is_differentially_private`
* `PDP.EndToEnd.C89_every_pipeline_has_its_own_accountant`
* `PDP.EndToEnd.C89_next_pipeline_is_chosen_from_results`
* `PDP.EndToEnd.C89_everything_is_observed`
* `PDP.EndToEnd.C90_report_states_the_noise`
* `PDP.EndToEnd.C90_report_states_the_selection`
* `PDP.EndToEnd.C90_shown_budgets_add_up`
* `PDP.EndToEnd.C90_no_report_before_the_budgets`
* `PDP.EndToEnd.C90_vector_sum_is_not_explained`
* `PDP.EndToEnd.C91_results_are_accurate`
* `PDP.EndToEnd.C91_count_is_accurate`
* `PDP.EndToEnd.C91_privacy_id_count_is_accurate`
* `PDP.EndToEnd.C91_sum_is_accurate`
* `PDP.EndToEnd.C91_mean_of_noisy_values`
* `PDP.EndToEnd.C91_mean_is_accurate`
* `PDP.EndToEnd.C91_variance_of_noisy_values`
* `PDP.EndToEnd.C91_variance_is_accurate`
* `PDP.EndToEnd.C91_all_counts_at_once`
* `PDP.EndToEnd.C91_all_privacy_id_counts_at_once`
* `PDP.EndToEnd.C91_all_sums_at_once`
* `PDP.EndToEnd.C92_release_does_not_bias_numbers`
* `PDP.EndToEnd.C92_released_numbers_are_accurate`
* `PDP.EndToEnd.C93_add_dp_noise_is_accurate`
* `PDP.EndToEnd.C94_vector_sum_is_accurate`
* `PDP.EndToEnd.C94_one_vector_sum`
* `PDP.Backend.Annotations.C95_annotators_see_every_call`
* `PDP.Backend.Annotations.C95_only_beam_annotates`
* `PDP.Backend.Annotations.C95_annotation_stages_are_unique`
* `PDP.Backend.Annotations.C95_results_are_kept`
* `PDP.Backend.Annotations.C95_budgets_are_kept`
* `PDP.Backend.Annotations.C95_annotated_budgets_add_up`
* `PDP.Analysis.MonteCarlo.C96_result`
* `PDP.Analysis.MonteCarlo.C96_monotone`
* `PDP.Analysis.MonteCarlo.C96_order_statistic`
* `PDP.Analysis.MonteCarlo.C96_error_probability`
* `PDP.Analysis.MonteCarlo.C96_converges`
* `PDP.Analysis.MonteCarlo.C96_converges_almost_surely`
* `PDP.Engine.VectorAlias.C97_only_first_arrays_change`
* `PDP.Engine.VectorAlias.C97_first_call`
* `PDP.Engine.VectorAlias.C97_second_call`
* `PDP.Engine.VectorAlias.C97_shape_mismatch`
* `PDP.Engine.VectorAlias.C97_shared_array`
* `PDP.Engine.VectorAlias.C97_one_user_changes_all_partitions`
* `PDP.EndToEnd.Weights.C98_books_balance`
* `PDP.EndToEnd.Weights.C98_kept_iff`
* `PDP.EndToEnd.Weights.C98_delta_kept_iff`
* `PDP.EndToEnd.Weights.C98_call_raises_iff`
* `PDP.EndToEnd.Weights.C98_failing_weights`
* `PDP.EndToEnd.Weights.C98_signed_shares`
* `PDP.EndToEnd.Weights.C98_no_limit`
* `PDP.EndToEnd.Weights.C98_one_private_call`
