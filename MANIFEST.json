{
 "claims": [
  {
   "property": "C01",
   "status": "proved",
   "theorems": [
    "PDP.Budget.C01_epsilon_conserved",
    "PDP.Budget.C01_epsilon_never_exceeded",
    "PDP.Budget.C01_epsilon_proportional_to_weight"
   ],
   "note": "All histories of calls; scopes included. Ratio of epsilons for requests outside of scopes; inside scopes see C04."
  },
  {
   "property": "C02",
   "status": "proved",
   "theorems": [
    "PDP.Budget.C02_delta_conserved",
    "PDP.Budget.C02_delta_never_exceeded"
   ],
   "note": "All histories; rejection of Gaussian with delta 0 is C03_request_rejected_iff."
  },
  {
   "property": "C03",
   "status": "proved",
   "theorems": [
    "PDP.Budget.C03_no_budget_before_compute",
    "PDP.Budget.C03_budget_final_after_compute",
    "PDP.Budget.C03_compute_publishes",
    "PDP.Budget.C03_compute_inside_scope_is_fatal",
    "PDP.Budget.C03_rejected_request_has_no_effect",
    "PDP.Budget.C03_request_rejected_iff"
   ],
   "note": "C03_compute_inside_scope_is_fatal records that a failed compute_budgets inside a scope can not be repeated."
  },
  {
   "property": "C04",
   "status": "proved",
   "theorems": [
    "PDP.Budget.C04_scopes_divide_top_down",
    "PDP.Budget.C04_scope_gets_its_weight",
    "PDP.Budget.C04_counts_break_scope_shares"
   ],
   "note": "Counts above one break the shares: C04_counts_break_scope_shares."
  },
  {
   "property": "C05",
   "status": "proved",
   "theorems": [
    "PDP.Budget.C05_restrictions_enforced",
    "PDP.Budget.C05_announced_epsilon_is_granted",
    "PDP.Budget.C05_announced_delta_can_be_wrong"
   ],
   "note": "Announced epsilon is proved right; announced delta is shown wrong by a witness."
  },
  {
   "property": "C06",
   "status": "proved",
   "theorems": [
    "PDP.Budget.Pld.C06_search_sound",
    "PDP.Budget.Pld.C06_search_tight",
    "PDP.Budget.Pld.C06_search_terminates_iff",
    "PDP.Budget.Pld.C06_search_deterministic"
   ],
   "note": "The composition oracle is arbitrary."
  },
  {
   "property": "C07",
   "status": "proved",
   "theorems": [
    "PDP.Budget.Pld.C07_pure_dp_noise_spends_total",
    "PDP.Budget.Pld.C07_common_noise_level",
    "PDP.Budget.Pld.C07_generic_accounted_iff",
    "PDP.Budget.Pld.C07_laplace_accounted",
    "PDP.Budget.Pld.C07_composition_is_of_the_granted_mechanisms",
    "PDP.Budget.Pld.C07_generic_delta_share",
    "PDP.Budget.Pld.C07_leading_thresholding_not_accounted",
    "PDP.Budget.Pld.C07_later_thresholding_repeats",
    "PDP.Budget.Pld.C07_generic_weights_overspend"
   ],
   "note": "Includes the defects: GENERIC is accounted for only if weight = sensitivity, Laplace with sensitivity 1 only, leading thresholding mechanisms not at all."
  },
  {
   "property": "C08",
   "status": "proved",
   "theorems": [
    "PDP.C08_cross_and_per_partition_bounded",
    "PDP.C08_output_per_id_bounded"
   ],
   "note": "Any backend meeting the contract, any aggregation function."
  },
  {
   "property": "C09",
   "status": "proved",
   "theorems": [
    "PDP.C09_total_contributions_bounded"
   ],
   "note": ""
  },
  {
   "property": "C10",
   "status": "proved",
   "theorems": [
    "PDP.C10_cross_partition_bounded"
   ],
   "note": ""
  },
  {
   "property": "C11",
   "status": "proved",
   "theorems": [
    "PDP.C11_linf_sampler",
    "PDP.C11_no_bounding_keeps_every_row"
   ],
   "note": ""
  },
  {
   "property": "C12",
   "status": "proved",
   "theorems": [
    "PDP.C12_within_bounds_lossless_cross_and_per",
    "PDP.C12_within_bounds_lossless_per_id",
    "PDP.C12_within_bounds_lossless_cross",
    "PDP.C12_within_bounds_lossless_linf"
   ],
   "note": "Stated per privacy id, for each of the four bounders that drop rows."
  },
  {
   "property": "C13",
   "status": "proved",
   "theorems": [
    "PDP.C13_non_interference_cross_and_per",
    "PDP.C13_non_interference_per_id",
    "PDP.C13_non_interference_cross",
    "PDP.C13_non_interference_linf",
    "PDP.C13_non_interference_no_bounding"
   ],
   "note": "Runs are compared under the same random choices per key (Backend.KeyLocal)."
  },
  {
   "property": "C14",
   "status": "proved",
   "theorems": [
    "PDP.Engine.C14_count_sensitivity",
    "PDP.Engine.C14_compute_sensitivities_count"
   ],
   "note": "Any lawful key-local backend, any random choices; the sensitivity object is the one the combiner computes."
  },
  {
   "property": "C15",
   "status": "proved",
   "theorems": [
    "PDP.Engine.C15_privacy_id_count_sensitivity",
    "PDP.Engine.C15_compute_sensitivities_privacy_id_count"
   ],
   "note": ""
  },
  {
   "property": "C16",
   "status": "proved",
   "theorems": [
    "PDP.Engine.C16_sum_per_value_sensitivity",
    "PDP.Engine.C16_sum_per_partition_sensitivity",
    "PDP.Engine.C16_zero_bounds_rejected",
    "PDP.Engine.C16_compute_sensitivities_sum",
    "PDP.Engine.C16_partition_bounds_need_partition_limits",
    "PDP.Engine.C16_per_partition_clipping_broken_if_enforced"
   ],
   "note": "Both clipping regimes; the defect with already enforced bounds and per-partition clipping is C16_per_partition_clipping_broken_if_enforced."
  },
  {
   "property": "C17",
   "status": "proved",
   "theorems": [
    "PDP.Engine.C17_mean_normalized_sum_sensitivity",
    "PDP.Engine.C17_mean_count_sensitivity",
    "PDP.Engine.C17_variance_count_and_sum_sensitivity",
    "PDP.Engine.C17_variance_squares_sensitivity",
    "PDP.Engine.C17_variance_squares_not_covered"
   ],
   "note": "Mean: covered. Variance: count and sum covered; squares covered exactly for the ranges of SquaresCovered, C17_variance_squares_not_covered shows the code under-noises the others."
  },
  {
   "property": "C18",
   "status": "proved",
   "theorems": [
    "PDP.Engine.C18_user_accumulator",
    "PDP.Engine.C18_clipped_vector_is_in_ball",
    "PDP.Engine.C18_l0_norm_rejected",
    "PDP.Engine.C18_one_user_exceeds_declared_sensitivity",
    "PDP.Engine.C18_public_partitions_always_fail"
   ],
   "note": "The property fails in the code: the violation is proved for every max_norm above max_contributions_per_partition, and so is the failure with public partitions. Clipping of the released vector is proved right."
  },
  {
   "property": "C19",
   "status": "proved",
   "theorems": [
    "PDP.Engine.C19_merge_tree_independent",
    "PDP.Engine.C19_builtin_combiners_order_free",
    "PDP.Engine.C19_beam_merge_is_reduce"
   ],
   "note": ""
  },
  {
   "property": "C20",
   "status": "proved",
   "theorems": [
    "PDP.Engine.C20_compound_merges_componentwise",
    "PDP.Engine.C20_row_count_counts_pairs"
   ],
   "note": ""
  },
  {
   "property": "C21",
   "status": "proved",
   "theorems": [
    "PDP.Engine.C21_released_names_are_the_requested_metrics",
    "PDP.Engine.C21_each_budget_is_used_once",
    "PDP.Engine.C21_each_combiner_gets_its_mechanism"
   ],
   "note": "The textual form of percentiles is an injective function parameter."
  },
  {
   "property": "C22",
   "status": "proved",
   "theorems": [
    "PDP.Engine.C22_mean_without_noise",
    "PDP.Engine.C22_mean_of_empty_partition",
    "PDP.Engine.C22_variance_without_noise",
    "PDP.Engine.C22_variance_of_empty_partition",
    "PDP.Engine.C22_mean_from_noisy_values",
    "PDP.Engine.C22_variance_from_noisy_values",
    "PDP.Engine.C22_variance_of_a_point"
   ],
   "note": "Exact arithmetic; any merge tree."
  },
  {
   "property": "C23",
   "status": "proved",
   "theorems": [
    "PDP.EndToEnd.C23_thresholding_decides_public_partitions",
    "PDP.Engine.C23_public_partitions_are_the_output"
   ],
   "note": "Any lawful backend and combine operation. C23_thresholding_decides_public_partitions: with post-aggregation thresholding the public partitions are decided by the thresholding (COUNT, PRIVACY_ID_COUNT, SUM, MEAN, VARIANCE; data within the bounds); what PyDP decides for 0 users is not modelled."
  },
  {
   "property": "C24",
   "status": "proved",
   "theorems": [
    "PDP.Engine.C24_no_selection_if_thresholding_or_filtered",
    "PDP.Engine.C24_released_only_if_selected"
   ],
   "note": ""
  },
  {
   "property": "C25",
   "status": "proved",
   "theorems": [
    "PDP.Engine.C25_select_partitions"
   ],
   "note": ""
  },
  {
   "property": "C26",
   "status": "proved",
   "theorems": [
    "PDP.Validation.C26_accepted_iff_documented",
    "PDP.Validation.C26_rejection_is_value_error",
    "PDP.Validation.C26_accepted_bounds_are_valid",
    "PDP.Validation.C26_aggregate_accepts_iff",
    "PDP.Validation.C26_thresholding_excludes_enforced_bounds",
    "PDP.Validation.C26_accountant_compatibility",
    "PDP.Validation.C26_percentile_unbounded_with_vector_sum"
   ],
   "note": "Acceptance characterised in both directions for AggregateParams and aggregate; one accepted combination the documentation excludes is proved as a gap."
  },
  {
   "property": "C27",
   "status": "proved",
   "theorems": [
    "PDP.Validation.C27_entry_points_accept_iff_valid",
    "PDP.Validation.C27_accountant_accepts_iff",
    "PDP.Validation.C27_nan_is_accepted",
    "PDP.Validation.C27_add_dp_noise_params"
   ],
   "note": "Acceptance characterised at each entry point; NaN is accepted, proved as a gap."
  },
  {
   "property": "C28",
   "status": "proved",
   "theorems": [
    "PDP.Validation.C28_split_conserves_budget",
    "PDP.Validation.C28_parts_are_equal"
   ],
   "note": ""
  },
  {
   "property": "C29",
   "status": "proved",
   "theorems": [
    "PDP.PrivateBounds.C29_exponential_mechanism_is_dp",
    "PDP.PrivateBounds.C29_probabilities",
    "PDP.PrivateBounds.C29_higher_score_higher_probability",
    "PDP.PrivateBounds.C29_monotonicity_matters"
   ],
   "note": "Over the reals; np.random.choice is represented by its distribution."
  },
  {
   "property": "C30",
   "status": "proved",
   "theorems": [
    "PDP.PrivateBounds.C30_score_sensitivity",
    "PDP.PrivateBounds.C30_private_bound_is_dp",
    "PDP.PrivateBounds.C30_range",
    "PDP.PrivateBounds.C30_score_is_documented",
    "PDP.PrivateBounds.C30_underflow"
   ],
   "note": "Includes the end-to-end eps-DP statement; the floating point underflow is proved as a gap."
  },
  {
   "property": "C31",
   "status": "proved",
   "theorems": [
    "PDP.Histogram.C31_possible_bounds",
    "PDP.Histogram.C31_candidates_are_bin_lowers",
    "PDP.Histogram.C31_candidates_nonempty_iff"
   ],
   "note": ""
  },
  {
   "property": "C32",
   "status": "proved",
   "theorems": [
    "PDP.Histogram.C32_bins_partition_integers",
    "PDP.Histogram.C32_bin_width"
   ],
   "note": ""
  },
  {
   "property": "C33",
   "status": "proved",
   "theorems": [
    "PDP.Histogram.C33_frequency_histogram",
    "PDP.Histogram.C33_independent_of_backend",
    "PDP.Histogram.C33_additions_are_of_equal_bins",
    "PDP.Histogram.C33_dataset_histograms"
   ],
   "note": ""
  },
  {
   "property": "C34",
   "status": "proved",
   "theorems": [
    "PDP.Histogram.C34_quantiles",
    "PDP.Histogram.C34_rejected",
    "PDP.Histogram.C34_negative_quantile_fails",
    "PDP.Histogram.C34_monotone",
    "PDP.Histogram.C34_quantile_of_data"
   ],
   "note": "Negative quantiles fail with an index error, proved."
  },
  {
   "property": "C35",
   "status": "proved",
   "theorems": [
    "PDP.Histogram.C35_ratios_are_exact",
    "PDP.Histogram.C35_shape",
    "PDP.Histogram.C35_empty"
   ],
   "note": ""
  },
  {
   "property": "C36",
   "status": "proved",
   "theorems": [
    "PDP.Histogram.C36_preaggregated_histograms",
    "PDP.Histogram.C36_preaggregated_equals_raw",
    "PDP.Histogram.C36_exact_reciprocals",
    "PDP.Histogram.C36_preaggregate",
    "PDP.Histogram.C36_sum_histograms"
   ],
   "note": "Includes rounding errors of the reciprocal weights and the sum histograms (one value column)."
  },
  {
   "property": "C37",
   "status": "proved",
   "theorems": [
    "PDP.Backend.C37_labels_distinct",
    "PDP.Backend.C37_fuel_is_irrelevant",
    "PDP.Backend.C37_label_of_request",
    "PDP.Backend.C37_suffixes_separate_backends",
    "PDP.Backend.C37_suffixes_may_collide"
   ],
   "note": "Includes the separation of backends by suffixes of equal length and a collision otherwise."
  },
  {
   "property": "C38",
   "status": "proved",
   "theorems": [
    "PDP.Backend.C38_in_memory",
    "PDP.Backend.C38_beam_join",
    "PDP.Backend.C38_spark_join",
    "PDP.Backend.C38_spark_join_correct_iff",
    "PDP.Backend.C38_generator_keeps_one_row_per_listing",
    "PDP.Backend.C38_generator_loses_rows"
   ],
   "note": "CoGroupByKey and join by their contracts; the one-shot generator case is proved as a gap."
  },
  {
   "property": "C39",
   "status": "proved",
   "theorems": [
    "PDP.Backend.C39_spark_sample",
    "PDP.Backend.C39_spark_sample_two_values",
    "PDP.Backend.C39_spark_sample_zero",
    "PDP.Backend.C39_spark_sample_is_not_uniform",
    "PDP.Backend.C39_spark_sample_prefers_last",
    "PDP.C39_local_backend_lawful"
   ],
   "note": "Local, Spark (any reduction tree) and multi-process (C40_sample_exact) backends."
  },
  {
   "property": "C40",
   "status": "proved",
   "theorems": [
    "PDP.Backend.C40_count_never_too_large",
    "PDP.Backend.C40_count_exact_without_sharing",
    "PDP.Backend.C40_count_loses_updates",
    "PDP.Backend.C40_count_of_generator",
    "PDP.Backend.C40_group_exact",
    "PDP.Backend.C40_sample_exact",
    "PDP.Backend.C40_group_of_generator"
   ],
   "note": "Lost updates, exactness without sharing, grouping and sampling."
  },
  {
   "property": "C41",
   "status": "proved",
   "theorems": [
    "PDP.Backend.C41_rounding",
    "PDP.Backend.C41_monotone",
    "PDP.Backend.C41_ends",
    "PDP.Backend.C41_deterministic",
    "PDP.Backend.C41_kept_fraction"
   ],
   "note": "The hash is an arbitrary function to 64 bit values."
  },
  {
   "property": "C42",
   "status": "proved",
   "theorems": [
    "PDP.Analysis.C42_pmf",
    "PDP.Analysis.C42_is_distribution",
    "PDP.Analysis.C42_order",
    "PDP.Analysis.C42_moments"
   ],
   "note": "Exact pmf by induction on the list of probabilities, including order independence and the three moments; floats are rationals."
  },
  {
   "property": "C43",
   "status": "proved",
   "theorems": [
    "PDP.Analysis.C43_probability",
    "PDP.Analysis.C43_sum",
    "PDP.Analysis.C43_sum_parts",
    "PDP.Analysis.C43_count",
    "PDP.Analysis.C43_privacy_id_count"
   ],
   "note": "Uniform random sets of kept partitions, independent users, counted exactly; square root in the reals."
  },
  {
   "property": "C44",
   "status": "proved",
   "theorems": [
    "PDP.Analysis.C44_metrics",
    "PDP.Analysis.C44_merge_independence",
    "PDP.Analysis.C44_multi_column_empty_partition",
    "PDP.Analysis.C44_selection_needs_users",
    "PDP.Analysis.C44_multi_column_order_dependent"
   ],
   "note": "Every merge tree, three lists modelled separately; the multi-column exception is proved as a failure theorem."
  },
  {
   "property": "C45",
   "status": "proved",
   "theorems": [
    "PDP.Analysis.C45_average",
    "PDP.Analysis.C45_partitions",
    "PDP.Analysis.C45_errors",
    "PDP.Analysis.C45_error_parts",
    "PDP.Analysis.C45_l1_is_zero",
    "PDP.Analysis.C45_accounting",
    "PDP.Analysis.C45_accounting_iff",
    "PDP.Analysis.C45_accounting_count",
    "PDP.Analysis.C45_accounting_wrong",
    "PDP.Analysis.C45_relative_rmse_sign",
    "PDP.Analysis.C45_size_weight"
   ],
   "note": "All merge trees and weight functions; the per-partition errors are tied to the random bounding process of C43; wrong accounting and negative relative rmse proved as negative results."
  },
  {
   "property": "C46",
   "status": "proved",
   "theorems": [
    "PDP.Analysis.Tuning.C46_relative_step",
    "PDP.Analysis.Tuning.C46_relative_step_assert",
    "PDP.Analysis.Tuning.C46_subsample",
    "PDP.Analysis.Tuning.C46_nonpositive_bound",
    "PDP.Analysis.Tuning.C46_sum_bounds",
    "PDP.Analysis.Tuning.C46_configuration",
    "PDP.Analysis.Tuning.C46_partitions_not_tuned",
    "PDP.Analysis.Tuning.C46_multi_column_failure",
    "PDP.Analysis.Tuning.C46_succeeds",
    "PDP.Analysis.Tuning.C46_best",
    "PDP.Analysis.Tuning.C46_best_none"
   ],
   "note": "Gaps proved as C46_multi_column_failure and C46_nonpositive_bound."
  },
  {
   "property": "C47",
   "status": "proved",
   "theorems": [
    "PDP.Analysis.Strategy.C47_valid",
    "PDP.Analysis.Strategy.C47_strategy",
    "PDP.Analysis.Strategy.C47_laplace_without_delta",
    "PDP.Analysis.Strategy.C47_linf_irrelevant",
    "PDP.Analysis.Strategy.C47_configurations",
    "PDP.Analysis.Strategy.C47_share_gap",
    "PDP.Analysis.Strategy.C47_fixed_noise_ignored"
   ],
   "note": "Verif/Analysis/Strategy.lean; PyDP's Gaussian deviation and thresholds are parameters."
  },
  {
   "property": "C48",
   "status": "proved",
   "theorems": [
    "PDP.Analysis.PublicSummary.C48_summary",
    "PDP.Analysis.PublicSummary.C48_duplicates"
   ],
   "note": "Verif/Analysis/Summary.lean: for every lawful backend the three numbers are exact when no public partition is repeated; general formula with repetitions, which shows the miscounts."
  },
  {
   "property": "C49",
   "status": "proved",
   "theorems": [
    "PDP.Private.C49_lineage",
    "PDP.Private.C49_neighbours"
   ],
   "note": "Beam Map/FlatMap/Filter-like chains and Spark map/flat_map; see C49_neighbours for the effect on neighbouring datasets."
  },
  {
   "property": "C50",
   "status": "proved",
   "theorems": [
    "PDP.Private.C50_beam",
    "PDP.Private.C50_spark",
    "PDP.Private.C50_beam_faithful_iff",
    "PDP.Private.C50_spark_faithful_iff",
    "PDP.Private.C50_select",
    "PDP.Private.C50_beam_weight_effect",
    "PDP.Private.C50_single_metric",
    "PDP.Private.C50_extracted_ids",
    "PDP.Private.C50_combine_per_key_iff",
    "PDP.Private.C50_combine_fn",
    "PDP.Private.C50_combine_fn_inputs"
   ],
   "note": "Exact field-by-field forwarding for each wrapper, with the fields which are dropped."
  },
  {
   "property": "C51",
   "status": "proved",
   "theorems": [
    "PDP.DataFrame.C51_calls",
    "PDP.DataFrame.C51_build_iff",
    "PDP.DataFrame.C51_query",
    "PDP.DataFrame.C51_extract",
    "PDP.DataFrame.C51_run",
    "PDP.DataFrame.C51_engine_parameters",
    "PDP.DataFrame.C51_shape",
    "PDP.DataFrame.C51_one_element_list"
   ],
   "note": "Builder, extraction and conversion of results; the engine is a parameter. C51_one_element_list is the defect."
  },
  {
   "property": "C52",
   "status": "proved",
   "theorems": [
    "PDP.Histogram.C52_bucket_contains_value",
    "PDP.Histogram.C52_buckets_tile",
    "PDP.Histogram.C52_clamped",
    "PDP.Histogram.C52_sum_histograms",
    "PDP.Histogram.C52_totals",
    "PDP.Histogram.C52_flat_values_contiguous",
    "PDP.Histogram.C52_contiguous_after_sum",
    "PDP.Histogram.C52_dataset_sum_histograms",
    "PDP.Histogram.C52_independent_of_backend"
   ],
   "note": ""
  },
  {
   "property": "C53",
   "status": "proved",
   "theorems": [
    "PDP.Histogram.C53_estimated_ratio",
    "PDP.Histogram.C53_estimate_is_antitone",
    "PDP.Histogram.C53_table_of_histogram",
    "PDP.Histogram.C53_estimate_vs_exact",
    "PDP.Histogram.C53_empty_histogram_fails",
    "PDP.Histogram.C53_rmse_bounds",
    "PDP.Histogram.C53_noise_scaling",
    "PDP.Histogram.C53_estimate_rmse",
    "PDP.Histogram.C53_linf_is_required",
    "PDP.Histogram.C53_created_iff",
    "PDP.Histogram.C53_noise_is_that_of_the_engine",
    "PDP.Histogram.C53_estimate_for_dataset",
    "PDP.Histogram.C53_negative_sums",
    "PDP.Histogram.C53_zero_total_sum",
    "PDP.Histogram.C53_sum_estimator"
   ],
   "note": "Empty histogram fails, proved as a gap; the estimate is also related to the exact ratio."
  },
  {
   "property": "C54",
   "status": "proved",
   "theorems": [
    "PDP.Engine.AddNoise.C54_accepted_parameters",
    "PDP.Engine.AddNoise.C54_one_mechanism",
    "PDP.Engine.AddNoise.C54_noise_once",
    "PDP.Engine.AddNoise.C54_needs_budget",
    "PDP.Engine.AddNoise.C54_weight_ignored",
    "PDP.Engine.AddNoise.C54_failed_call_charged"
   ],
   "note": "On the naive accountant; noise samples are abstract."
  },
  {
   "property": "C55",
   "status": "proved",
   "theorems": [
    "PDP.Analysis.Config.C55_lengths",
    "PDP.Analysis.Config.C55_element",
    "PDP.Analysis.Config.C55_all",
    "PDP.Analysis.Config.C55_empty_strategies",
    "PDP.Analysis.Config.C55_mixed_bounds"
   ],
   "note": "Also proved: an empty list of strategies and mixed element types of the bounds are accepted and fail later."
  },
  {
   "property": "C56",
   "status": "proved",
   "theorems": [
    "PDP.Analysis.Reports.C56_buckets",
    "PDP.Analysis.Reports.C56_bucket_bounds",
    "PDP.Analysis.Reports.C56_pack",
    "PDP.Analysis.Reports.C56_pack_refused",
    "PDP.Analysis.Reports.C56_reports"
   ],
   "note": ""
  },
  {
   "property": "C57",
   "status": "proved",
   "theorems": [
    "PDP.Backend.C57_min_max_per_key",
    "PDP.Backend.C57_size",
    "PDP.Backend.C57_key_by",
    "PDP.Backend.C57_collect_to_container",
    "PDP.Backend.C57_collect_to_container_missing",
    "PDP.Backend.C57_sharded_filter_local",
    "PDP.Backend.C57_sharded_filter",
    "PDP.Backend.C57_sharded_filter_spark"
   ],
   "note": "size of an empty collection is an empty collection, as in the code."
  },
  {
   "property": "C58",
   "status": "proved",
   "theorems": [
    "PDP.Engine.Mechanism.C58_accepted_iff",
    "PDP.Engine.Mechanism.C58_derived",
    "PDP.Engine.Mechanism.C58_calibrated",
    "PDP.Engine.Mechanism.C58_missing",
    "PDP.Engine.Mechanism.C58_absolute_tolerance",
    "PDP.Engine.Mechanism.C58_laplace_privacy_loss",
    "PDP.Engine.Mechanism.C58_thresholding"
   ],
   "note": "Verif/Engine/Mechanism.lean; PyDP's Laplace scale = sensitivity/epsilon is part of the trusted base, Gaussian deviation is a parameter."
  },
  {
   "property": "C59",
   "status": "proved",
   "theorems": [
    "PDP.Engine.Report.C59_reports",
    "PDP.Engine.Report.C59_aggregate_stages",
    "PDP.Engine.Report.C59_bounding_stages",
    "PDP.Engine.Report.C59_cross_bounding_unreported",
    "PDP.Engine.Report.C59_before_budget",
    "PDP.Engine.Report.C59_selection_line",
    "PDP.Engine.Report.C59_cross_and_per_lines_name_the_larger_number",
    "PDP.Engine.Report.C59_per_partition_line_names_the_larger_number",
    "PDP.Engine.Report.C59_user_line_is_right"
   ],
   "note": "Texts of mechanisms are abstract functions of the state at report time."
  },
  {
   "property": "C60",
   "status": "proved",
   "theorems": [
    "PDP.EndToEnd.C60_pipeline_is_differentially_private",
    "PDP.EndToEnd.C60_pipeline_density_ratio",
    "PDP.EndToEnd.C60_supported_pipeline_runs"
   ],
   "note": "Pure epsilon: public partitions, Laplace noise, metrics COUNT, PRIVACY_ID_COUNT, SUM, MEAN, VARIANCE; naive accounting; no assumption on PyDP besides the Laplace density. C62 has private partitions and Gaussian noise."
  },
  {
   "property": "C61",
   "status": "proved",
   "theorems": [
    "PDP.EndToEnd.C61_public_listings_add_to_sums",
    "PDP.EndToEnd.C61_public_sum_exact_iff",
    "PDP.Engine.C61_count_is_exact",
    "PDP.Engine.C61_sum_is_exact",
    "PDP.Engine.C61_mean_is_exact",
    "PDP.Engine.C61_variance_is_exact",
    "PDP.Engine.C61_privacy_id_count_is_exact",
    "PDP.Engine.C61_sum_per_partition_is_exact",
    "PDP.Engine.C61_vector_sum_is_exact"
   ],
   "note": "Exactness of COUNT, PRIVACY_ID_COUNT, SUM (both kinds of bounds), MEAN, VARIANCE and VECTOR_SUM accumulators for data within the bounds. SUM with bounds per partition and public partitions: the exact value for any bounds, and exactness iff 0 is within the bounds. VECTOR_SUM is stated without public partitions, because with them every release fails (C18)."
  },
  {
   "property": "C62",
   "status": "proved",
   "theorems": [
    "PDP.EndToEnd.C62_aggregate_releases_the_kept",
    "PDP.EndToEnd.C62_select_releases_the_kept",
    "PDP.EndToEnd.C62_everything_is_observed",
    "PDP.EndToEnd.C62_pipeline_is_differentially_private",
    "PDP.EndToEnd.C62_supported_pipeline_runs"
   ],
   "note": "PyDP enters through Library.Contract (Gaussian noise, partition selection and thresholding keep their promised privacy; shown satisfiable by exampleLibrary_contract). VECTOR_SUM, percentiles, custom combiners and PLD accounting are outside the statement."
  },
  {
   "property": "C63",
   "status": "proved",
   "theorems": [
    "PDP.EndToEnd.C63_each_call_gets_its_share",
    "PDP.EndToEnd.C63_requested_metrics_are_released",
    "PDP.EndToEnd.C63_weight_shifts_selection",
    "PDP.EndToEnd.C63_pipeline_releases_what_is_documented",
    "PDP.EndToEnd.C63_budget_shares"
   ],
   "note": "All pipelines of C62 with data within the bounds. Gaussian deviations and PyDP's selection are parameters; percentiles, vector sums and custom combiners are not part of these pipelines."
  },
  {
   "property": "C64",
   "status": "proved",
   "theorems": [
    "PDP.Analysis.C64_local_backend_is_uniform",
    "PDP.Analysis.C64_local_executions_exist",
    "PDP.Analysis.C64_metrics_of_the_data",
    "PDP.Analysis.C64_errors_predicted",
    "PDP.Analysis.C64_selection_probability",
    "PDP.Analysis.C64_unsampled_public_partition_looks_empty",
    "PDP.Analysis.C64_metrics_of_preaggregated_data",
    "PDP.Analysis.C64_preaggregated_like_raw",
    "PDP.Analysis.C64_preaggregated_public_partitions_differ"
   ],
   "note": "Raw and pre-aggregated input, one or several columns, several configurations. The choice of partitions is uniform and independent by hypothesis; for LocalBackend this is proved from the documented distribution of np.random.choice, and such executions exist for every dataset. For more than 100 users the approximation of the number of users is a parameter (C44). SUM with bounds per value is not analysed by the code."
  },
  {
   "property": "C65",
   "status": "proved",
   "theorems": [
    "PDP.Analysis.C65_analysis_report",
    "PDP.Analysis.C65_rejected",
    "PDP.Analysis.C65_sum_needs_bounds_on_sums",
    "PDP.Analysis.C65_needs_partitions_bound",
    "PDP.Analysis.C65_empty_strategies_fail",
    "PDP.Analysis.C65_value_bounds_hide_sum_bounds",
    "PDP.Analysis.C65_configuration_budget",
    "PDP.Analysis.C65_configuration_spends_the_budget",
    "PDP.Analysis.C65_noise_is_that_of_the_engine",
    "PDP.Analysis.C65_selection_is_that_of_the_engine",
    "PDP.Analysis.C65_weight_is_ignored"
   ],
   "note": "Raw input, one or several configurations and columns. Supported options: COUNT, SUM with bounds per partition, PRIVACY_ID_COUNT, bounds on partitions and contributions per partition. PyDP's keep probability and Gaussian calibration are parameters. The comparison with the engine is for one configuration with one SUM column; budget_weight 1 for private partitions (else C65_weight_is_ignored)."
  },
  {
   "property": "C66",
   "status": "proved",
   "theorems": [
    "PDP.EndToEnd.C66_chosen_bound_and_pipeline_are_dp",
    "PDP.EndToEnd.C66_choice_is_not_counted"
   ],
   "note": "Choice with calculation_eps followed by any pipeline of C62 that depends on the choice; partitions are public (the same for both datasets). Assumptions of C62 on PyDP."
  },
  {
   "property": "C67",
   "status": "proved",
   "theorems": [
    "PDP.EndToEnd.C67_pld_pipeline_is_differentially_private",
    "PDP.EndToEnd.C67_pld_accepted_calls",
    "PDP.EndToEnd.C67_pld_pipeline_runs",
    "PDP.EndToEnd.C67_pld_thresholding_fails",
    "PDP.EndToEnd.C67_pld_attribute_error",
    "PDP.EndToEnd.C67_pld_requests"
   ],
   "note": "Assumes the contract PldContract of dp_accounting (dominating Laplace and Gaussian noise, composition, post-processing, soundness of get_epsilon_for_delta; satisfiable, refContract) and nothing of PyDP beyond its noise distributions. The docstring of the class calls it experimental. The accounting defects for GENERIC and thresholding mechanisms are in C07; the engine requests no GENERIC mechanism with this accountant."
  },
  {
   "property": "C68",
   "status": "proved",
   "theorems": [
    "PDP.EndToEnd.C68_adaptive_pipeline_is_differentially_private",
    "PDP.EndToEnd.C68_later_rounds_use_released_partitions",
    "PDP.EndToEnd.C68_supported_program_runs",
    "PDP.EndToEnd.C68_everything_is_observed"
   ],
   "note": "Collections of released keys are re-readable in the model; on the local backend such a collection is an iterator that must be copied (C38)."
  },
  {
   "property": "C69",
   "status": "proved",
   "theorems": [
    "PDP.Analysis.Normal.C69_certain",
    "PDP.Analysis.Normal.C69_is_distribution",
    "PDP.Analysis.Normal.C69_density_moments",
    "PDP.Analysis.Normal.C69_entries",
    "PDP.Analysis.Normal.C69_range",
    "PDP.Analysis.Normal.C69_range_only",
    "PDP.Analysis.Normal.C69_keep_sum",
    "PDP.Analysis.Normal.C69_keep_probability",
    "PDP.Analysis.Normal.C69_tails",
    "PDP.Analysis.Normal.C69_mass_missing"
   ],
   "note": "Floating point numbers are real numbers; scipy's normal distribution is Mathlib's. C69_mass_missing is the case in which mass is missing."
  },
  {
   "property": "C70",
   "status": "proved",
   "theorems": [
    "PDP.EndToEnd.C70_programs_are_differentially_private",
    "PDP.EndToEnd.C70_valid_programs_run",
    "PDP.EndToEnd.C70_aggregate",
    "PDP.EndToEnd.C70_select",
    "PDP.EndToEnd.C70_everything_is_observed"
   ],
   "note": "Naive accountant; VARIANCE and SUM with the value bounds for which their noise is large enough (C16, C17); elements of all collections have one type; the runtime and PyDP are parameters as in C62. Without CombinePerKey with custom combiners."
  },
  {
   "property": "C71",
   "status": "proved",
   "theorems": [
    "PDP.EndToEnd.C71_groups",
    "PDP.EndToEnd.C71_changed_data",
    "PDP.EndToEnd.C71_several_accountants"
   ],
   "note": "Same trusted base as C62 (noise and partition selection of PyDP by their contracts, exact real arithmetic). Theorems: groups, changed data, several accountants."
  },
  {
   "property": "C72",
   "status": "proved",
   "theorems": [
    "PDP.Frames.C72_query_is_differentially_private",
    "PDP.Frames.C72_several_queries",
    "PDP.Frames.C72_bad_arguments",
    "PDP.Frames.C72_what_is_computed",
    "PDP.Frames.C72_everything_is_observed"
   ],
   "note": "Same trusted base as C62. Caps different for mean and not both 0 for sum; input columns have numbers. The conversion of the released rows to a DataFrame is post-processing (C51)."
  },
  {
   "property": "C73",
   "status": "proved",
   "theorems": [
    "PDP.EndToEnd.C73_mixed_pipeline_is_differentially_private",
    "PDP.EndToEnd.C73_supported_pipeline_runs",
    "PDP.EndToEnd.C73_noise_is_add_dp_noise",
    "PDP.EndToEnd.C73_calls_only",
    "PDP.EndToEnd.C73_everything_is_observed"
   ],
   "note": "Budget sharing, sensitivities, mechanisms and composition are modelled; the collection given to add_dp_noise is any function of the data with the stated sensitivities, evaluated deterministically."
  },
  {
   "property": "C74",
   "status": "proved",
   "theorems": [
    "PDP.EndToEnd.C74_example_count_is_private",
    "PDP.EndToEnd.C74_reused_object_breaks_privacy",
    "PDP.EndToEnd.C74_supported_pipeline_runs",
    "PDP.EndToEnd.C74_empty_list_is_rejected",
    "PDP.EndToEnd.C74_requests",
    "PDP.EndToEnd.C74_each_combiner_uses_its_own_budgets",
    "PDP.EndToEnd.C74_outputs",
    "PDP.EndToEnd.C74_steps_only",
    "PDP.EndToEnd.C74_everything_is_observed",
    "PDP.EndToEnd.C74_custom_pipeline_is_differentially_private"
   ],
   "note": "Privacy of pipelines with custom combiners under the contract of their authors, runs without errors, requests and ownership of budgets, contents of the tuples, coverage of the observations, the repository's example combiner, and the defect of an object used twice."
  },
  {
   "property": "C75",
   "status": "proved",
   "theorems": [
    "PDP.EndToEnd.C75_supported_pipeline_runs",
    "PDP.EndToEnd.C75_repeated_percentile_is_rejected",
    "PDP.EndToEnd.C75_percentiles_share_one_request",
    "PDP.EndToEnd.C75_outputs",
    "PDP.EndToEnd.C75_without_percentiles",
    "PDP.EndToEnd.C75_everything_is_observed",
    "PDP.EndToEnd.C75_percentile_pipeline_is_differentially_private"
   ],
   "note": "Privacy of pipelines with percentiles under the contract of PyDP's quantile tree, runs without errors, rejection of repeated percentiles, one budget per call, arguments and contents of the trees, coverage of the observations, and agreement with C74 without percentiles."
  },
  {
   "property": "C76",
   "status": "proved",
   "theorems": [
    "PDP.Analysis.Tune.C76_tune",
    "PDP.Analysis.Tune.C76_candidates",
    "PDP.Analysis.Tune.C76_partitions_not_tuned",
    "PDP.Analysis.Tune.C76_minimised_metric",
    "PDP.Analysis.Tune.C76_dropped_is_perfect",
    "PDP.Analysis.Tune.C76_no_partition",
    "PDP.Analysis.Tune.C76_rejected"
   ],
   "note": "tune() on raw data composed of the models of C46, C47, C55 and C65: C76_tune (configurations, reports, recommendation, failure without partitions), C76_candidates, C76_minimised_metric, C76_rejected, and the gaps C76_no_partition and C76_dropped_is_perfect."
  },
  {
   "property": "C77",
   "status": "proved",
   "theorems": [
    "PDP.Backend.C77_spark_backend_lawful",
    "PDP.Backend.C77_spark_combine_lawful",
    "PDP.Backend.C77_spark_key_local",
    "PDP.EndToEnd.C77_spark_single_rows_private",
    "PDP.EndToEnd.C77_spark_sampling_breaks_privacy"
   ],
   "note": "C77_spark_backend_lawful and C77_spark_combine_lawful (contracts for every placement), C77_spark_key_local and C77_spark_single_rows_private (private placements), C77_spark_sampling_breaks_privacy (gap). How Spark places rows and reduces is an assumption about external code, stated in the model."
  },
  {
   "property": "C78",
   "status": "proved",
   "theorems": [
    "PDP.Backend.C78_beam_reduce",
    "PDP.Backend.C78_beam_sum",
    "PDP.Backend.C78_beam_loop_iff",
    "PDP.Backend.C78_beam_combine",
    "PDP.Backend.C78_beam_loses_falsy",
    "PDP.Backend.C78_beam_ops_lawful",
    "PDP.Backend.C78_spark_ops_lawful"
   ],
   "note": "C78_beam_reduce, C78_beam_sum, C78_beam_combine, C78_beam_loop_iff, C78_beam_ops_lawful, C78_spark_ops_lawful; gap C78_beam_loses_falsy. Grouping, counting and distinct elements of Beam and groupByKey/distinct of Spark are contracts of the runtimes."
  },
  {
   "property": "C79",
   "status": "proved",
   "theorems": [
    "PDP.EndToEnd.C79_loss_is_attained",
    "PDP.EndToEnd.C79_private_iff",
    "PDP.EndToEnd.C79_large_norms_are_not_private",
    "PDP.EndToEnd.C79_vector_pipeline_is_differentially_private",
    "PDP.EndToEnd.C79_same_sums",
    "PDP.EndToEnd.C79_same_release",
    "PDP.EndToEnd.C79_same_requests",
    "PDP.EndToEnd.C79_vector_sum_is_private",
    "PDP.EndToEnd.C79_actual_loss"
   ],
   "note": "VECTOR_SUM with private partitions and metrics = [VECTOR_SUM]; with public partitions the code fails (C18). Arrays have the declared shape (others raise TypeError). For Gaussian noise the condition 2 * max_norm <= max_contributions_per_partition is sufficient; necessity is shown for Laplace noise. As in C62/C74: naive accountant, PyDP contracts, the caller's promises."
  },
  {
   "property": "C80",
   "status": "proved",
   "theorems": [
    "PDP.EndToEnd.C80_loss_of_one_user",
    "PDP.EndToEnd.C80_defects_break_privacy",
    "PDP.EndToEnd.C80_private_exactly_without_defects",
    "PDP.EndToEnd.C80_promised_epsilon_is_attained",
    "PDP.EndToEnd.C80_unselected_partitions_reveal_users"
   ],
   "note": "Laplace noise and public partitions for the exact loss; the equivalence leaves out SUM with bounds per partition, enforced bounds and one row per partition (neither listed as a defect nor shown private)."
  },
  {
   "property": "C81",
   "status": "proved",
   "theorems": [
    "PDP.EndToEnd.C81_generator_reveals_users",
    "PDP.Engine.C81_complete_iff_rows_in_listed_order",
    "PDP.Engine.C81_at_most_one_row_per_partition",
    "PDP.Engine.C81_foreign_row_ends_the_input",
    "PDP.Engine.C81_filtered_data_reads_once"
   ],
   "note": "The iterator is read as LocalBackend does: all rows through the filter first, then the empty partitions. The theorem on privacy is for data of one user; the others are for all data."
  },
  {
   "property": "C82",
   "status": "proved",
   "theorems": [
    "PDP.Serialise.C82_results_arrive_unchanged",
    "PDP.Serialise.C82_one_type_per_process",
    "PDP.Serialise.C82_copy_is_equal",
    "PDP.Serialise.C82_copies_use_the_same_mechanism",
    "PDP.Serialise.C82_copy_knows_the_budget_of_its_moment",
    "PDP.Serialise.C82_original_follows_the_accountant"
   ],
   "note": "pickle is modelled by its protocol: __reduce__ for results, __getstate__ for combiners; a copy has its own mechanism specification."
  },
  {
   "property": "C83",
   "status": "proved",
   "theorems": [
    "PDP.EndToEnd.C83_evaluable_calls_run",
    "PDP.EndToEnd.C83_other_calls_release_nothing",
    "PDP.EndToEnd.C83_other_public_calls_fail",
    "PDP.EndToEnd.C83_evaluable_percentile_calls_run",
    "PDP.EndToEnd.C83_other_percentile_calls_release_nothing",
    "PDP.EndToEnd.C83_other_public_percentile_calls_fail"
   ],
   "note": "PyDP is taken not to accept None for the number of partitions; exceptions of the evaluation are compared as success or failure, not by their type. PyDP's quantile trees are taken to raise no exception, though they need min_value < max_value. VECTOR_SUM is not covered."
  },
  {
   "property": "C84",
   "status": "proved",
   "theorems": [
    "PDP.EndToEnd.C84_thresholded_public_partitions_are_private",
    "PDP.EndToEnd.C84_dropping_empty_partitions_suffices"
   ],
   "note": "Under Library.Contract (as C62) and ThresholdsKnownPartitions, the promise of PyDP's thresholding for known partitions including count 0, which Laplace thresholding meets (thresholdsKnownPartitions_laplace). Metrics and bounds as in C62. If PyDP never releases a partition without privacy ids, ThresholdsKnownPartitions follows from Library.Contract (C84_dropping_empty_partitions_suffices)."
  },
  {
   "property": "C85",
   "status": "proved",
   "theorems": [
    "PDP.Histogram.C85_equal_iff",
    "PDP.Histogram.C85_equality_is_an_equivalence",
    "PDP.Histogram.C85_equal_histograms_answer_equally",
    "PDP.Histogram.C85_equal_count_histograms",
    "PDP.Histogram.C85_equal_iff_same_small_numbers",
    "PDP.Histogram.C85_minimum_is_not_compared"
   ],
   "note": "Bins are compared as exact numbers; NaN is not modelled."
  },
  {
   "property": "C86",
   "status": "proved",
   "theorems": [
    "PDP.EndToEnd.C86_adaptive_noise_is_differentially_private",
    "PDP.EndToEnd.C86_later_rounds_use_released_partitions",
    "PDP.EndToEnd.C86_supported_program_runs",
    "PDP.EndToEnd.C86_everything_is_observed",
    "PDP.EndToEnd.C86_calls_only",
    "PDP.EndToEnd.C86_unselected_partitions_are_revealed"
   ],
   "note": "Rounds depend on the released partitions, not on the released numbers. Privacy under the promises of PyDP and the sensitivities the user states; the converse for partitions taken from the data needs no promises."
  },
  {
   "property": "C87",
   "status": "proved",
   "theorems": [
    "PDP.Engine.Readable.C87_lines_show_parameters",
    "PDP.Engine.Readable.C87_text_determines_parameters",
    "PDP.Engine.Readable.C87_select_partitions_text",
    "PDP.Engine.Readable.C87_add_dp_noise_text",
    "PDP.Engine.Readable.C87_text_tells_the_operation",
    "PDP.Engine.Readable.C87_other_lines_show_parameters",
    "PDP.Engine.Readable.C87_text_begins_with_the_class"
   ],
   "note": "Texts of parameters without custom combiners; printing of numbers is a parameter with stated properties."
  },
  {
   "property": "C88",
   "status": "proved",
   "theorems": [
    "PDP.DataFrame.C88_query_succeeds_iff",
    "PDP.DataFrame.C88_rows",
    "PDP.DataFrame.C88_errors",
    "PDP.DataFrame.C88_shaped_keys_stay_apart",
    "PDP.DataFrame.C88_long_keys_are_merged"
   ],
   "note": "Shape of the engine's results is a hypothesis (Answers); acceptable names are a parameter."
  },
  {
   "property": "C89",
   "status": "proved",
   "theorems": [
    "PDP.EndToEnd.C89_session_is_differentially_private",
    "PDP.EndToEnd.C89_every_pipeline_has_its_own_accountant",
    "PDP.EndToEnd.C89_next_pipeline_is_chosen_from_results",
    "PDP.EndToEnd.C89_everything_is_observed"
   ],
   "note": "Hypotheses of C73 for every pipeline that may be chosen, with its contract of the noise library; decisions in a countable type; everything is observed for finitely many decisions."
  },
  {
   "property": "C90",
   "status": "proved",
   "theorems": [
    "PDP.EndToEnd.C90_report_states_the_noise",
    "PDP.EndToEnd.C90_report_states_the_selection",
    "PDP.EndToEnd.C90_shown_budgets_add_up",
    "PDP.EndToEnd.C90_no_report_before_the_budgets",
    "PDP.EndToEnd.C90_vector_sum_is_not_explained"
   ],
   "note": "Calls of C62; the standard deviation of Gaussian noise and the threshold are functions of the library; wording is not modelled; VECTOR_SUM is a proved gap."
  },
  {
   "property": "C91",
   "status": "proved",
   "theorems": [
    "PDP.EndToEnd.C91_results_are_accurate",
    "PDP.EndToEnd.C91_count_is_accurate",
    "PDP.EndToEnd.C91_privacy_id_count_is_accurate",
    "PDP.EndToEnd.C91_sum_is_accurate",
    "PDP.EndToEnd.C91_mean_of_noisy_values",
    "PDP.EndToEnd.C91_mean_is_accurate",
    "PDP.EndToEnd.C91_variance_of_noisy_values",
    "PDP.EndToEnd.C91_variance_is_accurate",
    "PDP.EndToEnd.C91_all_counts_at_once",
    "PDP.EndToEnd.C91_all_privacy_id_counts_at_once",
    "PDP.EndToEnd.C91_all_sums_at_once"
   ],
   "note": "Continuous noise (ideal Laplace and Gaussian distributions; PyDP's discretised noise is a parameter of the trusted base). Numbers released by the calls of C63; for MEAN and VARIANCE the number computed from independent noisy numbers. The theorems for a single metric are for Laplace noise and public partitions; the general one also for Gaussian noise and private partitions."
  },
  {
   "property": "C92",
   "status": "proved",
   "theorems": [
    "PDP.EndToEnd.C92_release_does_not_bias_numbers",
    "PDP.EndToEnd.C92_released_numbers_are_accurate"
   ],
   "note": "Distribution of a release as in C62: fresh randomness of PyDP for each decision and each noise is in the trusted base. Ideal Laplace and Gaussian noise. Not for the thresholded PRIVACY_ID_COUNT itself. Numbers are the noisy ones (for MEAN and VARIANCE the noisy count and sums)."
  },
  {
   "property": "C93",
   "status": "proved",
   "theorems": [
    "PDP.EndToEnd.C93_add_dp_noise_is_accurate"
   ],
   "note": "Ideal Laplace and Gaussian noise (PyDP is in the trusted base). Pipelines made of add_dp_noise calls only; with other calls in the pipeline the share of epsilon is smaller (C54, C73)."
  },
  {
   "property": "C94",
   "status": "proved",
   "theorems": [
    "PDP.EndToEnd.C94_vector_sum_is_accurate",
    "PDP.EndToEnd.C94_one_vector_sum"
   ],
   "note": "Ideal noise (PyDP in the trusted base). Exact arithmetic instead of numpy floats. The total-budget form is for a call alone in a pipeline; the other theorem is for any budget that the metric gets."
  },
  {
   "property": "C95",
   "status": "proved",
   "theorems": [
    "PDP.Backend.Annotations.C95_annotators_see_every_call",
    "PDP.Backend.Annotations.C95_only_beam_annotates",
    "PDP.Backend.Annotations.C95_annotation_stages_are_unique",
    "PDP.Backend.Annotations.C95_results_are_kept",
    "PDP.Backend.Annotations.C95_budgets_are_kept",
    "PDP.Backend.Annotations.C95_annotated_budgets_add_up"
   ],
   "note": "Naive accountant. An annotator is a function of the collection and its arguments that may add stages; it does not register annotators. A session ends at the first exception."
  },
  {
   "property": "C96",
   "status": "proved",
   "theorems": [
    "PDP.Analysis.MonteCarlo.C96_result",
    "PDP.Analysis.MonteCarlo.C96_monotone",
    "PDP.Analysis.MonteCarlo.C96_order_statistic",
    "PDP.Analysis.MonteCarlo.C96_error_probability",
    "PDP.Analysis.MonteCarlo.C96_converges",
    "PDP.Analysis.MonteCarlo.C96_converges_almost_surely"
   ],
   "note": "Pairwise independence and the laws of the samples are hypotheses about numpy's generators; np.quantile is modelled with its default method."
  },
  {
   "property": "C97",
   "status": "proved",
   "theorems": [
    "PDP.Engine.VectorAlias.C97_only_first_arrays_change",
    "PDP.Engine.VectorAlias.C97_first_call",
    "PDP.Engine.VectorAlias.C97_second_call",
    "PDP.Engine.VectorAlias.C97_shape_mismatch",
    "PDP.Engine.VectorAlias.C97_shared_array",
    "PDP.Engine.VectorAlias.C97_one_user_changes_all_partitions"
   ],
   "note": "Covers LocalBackend, where values are passed by reference; dtypes are not modelled."
  },
  {
   "property": "C98",
   "status": "proved",
   "theorems": [
    "PDP.EndToEnd.Weights.C98_books_balance",
    "PDP.EndToEnd.Weights.C98_kept_iff",
    "PDP.EndToEnd.Weights.C98_delta_kept_iff",
    "PDP.EndToEnd.Weights.C98_call_raises_iff",
    "PDP.EndToEnd.Weights.C98_failing_weights",
    "PDP.EndToEnd.Weights.C98_signed_shares",
    "PDP.EndToEnd.Weights.C98_no_limit",
    "PDP.EndToEnd.Weights.C98_one_private_call"
   ],
   "note": "Any history for the sums and the criterion; any sequence of engine calls for the shares. Negative weights are accepted and break the guarantee of C01 (finding); C01, C62 and the properties on them assume positive weights."
  }
 ]
}