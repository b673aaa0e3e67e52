{
 "C01": {
  "status": "proved",
  "note": "All histories of calls; scopes included. Ratio of epsilons for requests outside of scopes; inside scopes see C04."
 },
 "C02": {
  "status": "proved",
  "note": "All histories; rejection of Gaussian with delta 0 is C03_request_rejected_iff."
 },
 "C03": {
  "status": "proved",
  "note": "C03_compute_inside_scope_is_fatal records that a failed compute_budgets inside a scope can not be repeated."
 },
 "C04": {
  "status": "proved",
  "note": "Counts above one break the shares: C04_counts_break_scope_shares."
 },
 "C05": {
  "status": "proved",
  "note": "Announced epsilon is proved right; announced delta is shown wrong by a witness."
 },
 "C06": {
  "status": "proved",
  "note": "The composition oracle is arbitrary."
 },
 "C07": {
  "status": "proved",
  "note": "Includes the defects: GENERIC is accounted for only if weight = sensitivity, Laplace with sensitivity 1 only, leading thresholding mechanisms not at all."
 },
 "C08": {
  "status": "proved",
  "note": "Any backend meeting the contract, any aggregation function."
 },
 "C09": {
  "status": "proved",
  "note": ""
 },
 "C10": {
  "status": "proved",
  "note": ""
 },
 "C11": {
  "status": "proved",
  "note": ""
 },
 "C12": {
  "status": "proved",
  "note": "Stated per privacy id, for each of the four bounders that drop rows."
 },
 "C13": {
  "status": "proved",
  "note": "Runs are compared under the same random choices per key (Backend.KeyLocal)."
 },
 "C14": {
  "status": "proved",
  "note": "Any lawful key-local backend, any random choices; the sensitivity object is the one the combiner computes."
 },
 "C15": {
  "status": "proved",
  "note": ""
 },
 "C16": {
  "status": "proved",
  "note": "Both clipping regimes; the defect with already enforced bounds and per-partition clipping is C16_per_partition_clipping_broken_if_enforced."
 },
 "C17": {
  "status": "proved",
  "note": "Mean: covered. Variance: count and sum covered; squares covered exactly for the ranges of SquaresCovered, C17_variance_squares_not_covered shows the code under-noises the others."
 },
 "C18": {
  "status": "proved",
  "note": "The property fails in the code: the violation is proved for every max_norm above max_contributions_per_partition, and so is the failure with public partitions. Clipping of the released vector is proved right."
 },
 "C19": {
  "status": "proved",
  "note": ""
 },
 "C20": {
  "status": "proved",
  "note": ""
 },
 "C21": {
  "status": "proved",
  "note": "The textual form of percentiles is an injective function parameter."
 },
 "C22": {
  "status": "proved",
  "note": "Exact arithmetic; any merge tree."
 },
 "C23": {
  "status": "proved",
  "note": "Any lawful backend and combine operation. C23_thresholding_decides_public_partitions: with post-aggregation thresholding the public partitions are decided by the thresholding (COUNT, PRIVACY_ID_COUNT, SUM, MEAN, VARIANCE; data within the bounds); what PyDP decides for 0 users is not modelled."
 },
 "C24": {
  "status": "proved",
  "note": ""
 },
 "C25": {
  "status": "proved",
  "note": ""
 },
 "C26": {
  "status": "proved",
  "note": "Acceptance characterised in both directions for AggregateParams and aggregate; one accepted combination the documentation excludes is proved as a gap."
 },
 "C27": {
  "status": "proved",
  "note": "Acceptance characterised at each entry point; NaN is accepted, proved as a gap."
 },
 "C28": {
  "status": "proved",
  "note": ""
 },
 "C29": {
  "status": "proved",
  "note": "Over the reals; np.random.choice is represented by its distribution."
 },
 "C30": {
  "status": "proved",
  "note": "Includes the end-to-end eps-DP statement; the floating point underflow is proved as a gap."
 },
 "C31": {
  "status": "proved",
  "note": ""
 },
 "C32": {
  "status": "proved",
  "note": ""
 },
 "C33": {
  "status": "proved",
  "note": ""
 },
 "C34": {
  "status": "proved",
  "note": "Negative quantiles fail with an index error, proved."
 },
 "C35": {
  "status": "proved",
  "note": ""
 },
 "C36": {
  "status": "proved",
  "note": "Includes rounding errors of the reciprocal weights and the sum histograms (one value column)."
 },
 "C37": {
  "status": "proved",
  "note": "Includes the separation of backends by suffixes of equal length and a collision otherwise."
 },
 "C38": {
  "status": "proved",
  "note": "CoGroupByKey and join by their contracts; the one-shot generator case is proved as a gap."
 },
 "C39": {
  "status": "proved",
  "note": "Local, Spark (any reduction tree) and multi-process (C40_sample_exact) backends."
 },
 "C40": {
  "status": "proved",
  "note": "Lost updates, exactness without sharing, grouping and sampling."
 },
 "C41": {
  "status": "proved",
  "note": "The hash is an arbitrary function to 64 bit values."
 },
 "C42": {
  "status": "proved",
  "note": "Exact pmf by induction on the list of probabilities, including order independence and the three moments; floats are rationals."
 },
 "C43": {
  "status": "proved",
  "note": "Uniform random sets of kept partitions, independent users, counted exactly; square root in the reals."
 },
 "C44": {
  "status": "proved",
  "note": "Every merge tree, three lists modelled separately; the multi-column exception is proved as a failure theorem."
 },
 "C45": {
  "status": "proved",
  "note": "All merge trees and weight functions; the per-partition errors are tied to the random bounding process of C43; wrong accounting and negative relative rmse proved as negative results."
 },
 "C46": {
  "status": "proved",
  "note": "Gaps proved as C46_multi_column_failure and C46_nonpositive_bound."
 },
 "C47": {
  "status": "proved",
  "note": "Verif/Analysis/Strategy.lean; PyDP's Gaussian deviation and thresholds are parameters."
 },
 "C48": {
  "status": "proved",
  "note": "Verif/Analysis/Summary.lean: for every lawful backend the three numbers are exact when no public partition is repeated; general formula with repetitions, which shows the miscounts."
 },
 "C49": {
  "status": "proved",
  "note": "Beam Map/FlatMap/Filter-like chains and Spark map/flat_map; see C49_neighbours for the effect on neighbouring datasets."
 },
 "C50": {
  "status": "proved",
  "note": "Exact field-by-field forwarding for each wrapper, with the fields which are dropped."
 },
 "C51": {
  "status": "proved",
  "note": "Builder, extraction and conversion of results; the engine is a parameter. C51_one_element_list is the defect."
 },
 "C52": {
  "status": "proved",
  "note": ""
 },
 "C53": {
  "status": "proved",
  "note": "Empty histogram fails, proved as a gap; the estimate is also related to the exact ratio."
 },
 "C54": {
  "status": "proved",
  "note": "On the naive accountant; noise samples are abstract."
 },
 "C55": {
  "status": "proved",
  "note": "Also proved: an empty list of strategies and mixed element types of the bounds are accepted and fail later."
 },
 "C56": {
  "status": "proved",
  "note": ""
 },
 "C57": {
  "status": "proved",
  "note": "size of an empty collection is an empty collection, as in the code."
 },
 "C58": {
  "status": "proved",
  "note": "Verif/Engine/Mechanism.lean; PyDP's Laplace scale = sensitivity/epsilon is part of the trusted base, Gaussian deviation is a parameter."
 },
 "C59": {
  "status": "proved",
  "note": "Texts of mechanisms are abstract functions of the state at report time."
 },
 "C60": {
  "status": "proved",
  "note": "Pure epsilon: public partitions, Laplace noise, metrics COUNT, PRIVACY_ID_COUNT, SUM, MEAN, VARIANCE; naive accounting; no assumption on PyDP besides the Laplace density. C62 has private partitions and Gaussian noise."
 },
 "C61": {
  "status": "proved",
  "note": "Exactness of COUNT, PRIVACY_ID_COUNT, SUM (both kinds of bounds), MEAN, VARIANCE and VECTOR_SUM accumulators for data within the bounds. SUM with bounds per partition and public partitions: the exact value for any bounds, and exactness iff 0 is within the bounds. VECTOR_SUM is stated without public partitions, because with them every release fails (C18)."
 },
 "C62": {
  "status": "proved",
  "note": "PyDP enters through Library.Contract (Gaussian noise, partition selection and thresholding keep their promised privacy; shown satisfiable by exampleLibrary_contract). VECTOR_SUM, percentiles, custom combiners and PLD accounting are outside the statement."
 },
 "C63": {
  "status": "proved",
  "note": "All pipelines of C62 with data within the bounds. Gaussian deviations and PyDP's selection are parameters; percentiles, vector sums and custom combiners are not part of these pipelines."
 },
 "C64": {
  "status": "proved",
  "note": "Raw and pre-aggregated input, one or several columns, several configurations. The choice of partitions is uniform and independent by hypothesis; for LocalBackend this is proved from the documented distribution of np.random.choice, and such executions exist for every dataset. For more than 100 users the approximation of the number of users is a parameter (C44). SUM with bounds per value is not analysed by the code."
 },
 "C65": {
  "status": "proved",
  "note": "Raw input, one or several configurations and columns. Supported options: COUNT, SUM with bounds per partition, PRIVACY_ID_COUNT, bounds on partitions and contributions per partition. PyDP's keep probability and Gaussian calibration are parameters. The comparison with the engine is for one configuration with one SUM column; budget_weight 1 for private partitions (else C65_weight_is_ignored)."
 },
 "C66": {
  "status": "proved",
  "note": "Choice with calculation_eps followed by any pipeline of C62 that depends on the choice; partitions are public (the same for both datasets). Assumptions of C62 on PyDP."
 },
 "C67": {
  "status": "proved",
  "note": "Assumes the contract PldContract of dp_accounting (dominating Laplace and Gaussian noise, composition, post-processing, soundness of get_epsilon_for_delta; satisfiable, refContract) and nothing of PyDP beyond its noise distributions. The docstring of the class calls it experimental. The accounting defects for GENERIC and thresholding mechanisms are in C07; the engine requests no GENERIC mechanism with this accountant."
 },
 "C68": {
  "status": "proved",
  "note": "Collections of released keys are re-readable in the model; on the local backend such a collection is an iterator that must be copied (C38)."
 },
 "C69": {
  "status": "proved",
  "note": "Floating point numbers are real numbers; scipy's normal distribution is Mathlib's. C69_mass_missing is the case in which mass is missing."
 },
 "C70": {
  "status": "proved",
  "note": "Naive accountant; VARIANCE and SUM with the value bounds for which their noise is large enough (C16, C17); elements of all collections have one type; the runtime and PyDP are parameters as in C62. Without CombinePerKey with custom combiners."
 },
 "C71": {
  "status": "proved",
  "note": "Same trusted base as C62 (noise and partition selection of PyDP by their contracts, exact real arithmetic). Theorems: groups, changed data, several accountants."
 },
 "C72": {
  "status": "proved",
  "note": "Same trusted base as C62. Caps different for mean and not both 0 for sum; input columns have numbers. The conversion of the released rows to a DataFrame is post-processing (C51)."
 },
 "C73": {
  "status": "proved",
  "note": "Budget sharing, sensitivities, mechanisms and composition are modelled; the collection given to add_dp_noise is any function of the data with the stated sensitivities, evaluated deterministically."
 },
 "C74": {
  "status": "proved",
  "note": "Privacy of pipelines with custom combiners under the contract of their authors, runs without errors, requests and ownership of budgets, contents of the tuples, coverage of the observations, the repository's example combiner, and the defect of an object used twice."
 },
 "C75": {
  "status": "proved",
  "note": "Privacy of pipelines with percentiles under the contract of PyDP's quantile tree, runs without errors, rejection of repeated percentiles, one budget per call, arguments and contents of the trees, coverage of the observations, and agreement with C74 without percentiles."
 },
 "C76": {
  "status": "proved",
  "note": "tune() on raw data composed of the models of C46, C47, C55 and C65: C76_tune (configurations, reports, recommendation, failure without partitions), C76_candidates, C76_minimised_metric, C76_rejected, and the gaps C76_no_partition and C76_dropped_is_perfect."
 },
 "C77": {
  "status": "proved",
  "note": "C77_spark_backend_lawful and C77_spark_combine_lawful (contracts for every placement), C77_spark_key_local and C77_spark_single_rows_private (private placements), C77_spark_sampling_breaks_privacy (gap). How Spark places rows and reduces is an assumption about external code, stated in the model."
 },
 "C78": {
  "status": "proved",
  "note": "C78_beam_reduce, C78_beam_sum, C78_beam_combine, C78_beam_loop_iff, C78_beam_ops_lawful, C78_spark_ops_lawful; gap C78_beam_loses_falsy. Grouping, counting and distinct elements of Beam and groupByKey/distinct of Spark are contracts of the runtimes."
 },
 "C79": {
  "status": "proved",
  "note": "VECTOR_SUM with private partitions and metrics = [VECTOR_SUM]; with public partitions the code fails (C18). Arrays have the declared shape (others raise TypeError). For Gaussian noise the condition 2 * max_norm <= max_contributions_per_partition is sufficient; necessity is shown for Laplace noise. As in C62/C74: naive accountant, PyDP contracts, the caller's promises."
 },
 "C80": {
  "status": "proved",
  "note": "Laplace noise and public partitions for the exact loss; the equivalence leaves out SUM with bounds per partition, enforced bounds and one row per partition (neither listed as a defect nor shown private)."
 },
 "C81": {
  "status": "proved",
  "note": "The iterator is read as LocalBackend does: all rows through the filter first, then the empty partitions. The theorem on privacy is for data of one user; the others are for all data."
 },
 "C82": {
  "status": "proved",
  "note": "pickle is modelled by its protocol: __reduce__ for results, __getstate__ for combiners; a copy has its own mechanism specification."
 },
 "C83": {
  "status": "proved",
  "note": "PyDP is taken not to accept None for the number of partitions; exceptions of the evaluation are compared as success or failure, not by their type. PyDP's quantile trees are taken to raise no exception, though they need min_value < max_value. VECTOR_SUM is not covered."
 },
 "C84": {
  "status": "proved",
  "note": "Under Library.Contract (as C62) and ThresholdsKnownPartitions, the promise of PyDP's thresholding for known partitions including count 0, which Laplace thresholding meets (thresholdsKnownPartitions_laplace). Metrics and bounds as in C62. If PyDP never releases a partition without privacy ids, ThresholdsKnownPartitions follows from Library.Contract (C84_dropping_empty_partitions_suffices)."
 },
 "C85": {
  "status": "proved",
  "note": "Bins are compared as exact numbers; NaN is not modelled."
 },
 "C86": {
  "status": "proved",
  "note": "Rounds depend on the released partitions, not on the released numbers. Privacy under the promises of PyDP and the sensitivities the user states; the converse for partitions taken from the data needs no promises."
 },
 "C87": {
  "status": "proved",
  "note": "Texts of parameters without custom combiners; printing of numbers is a parameter with stated properties."
 },
 "C88": {
  "status": "proved",
  "note": "Shape of the engine's results is a hypothesis (Answers); acceptable names are a parameter."
 },
 "C89": {
  "status": "proved",
  "note": "Hypotheses of C73 for every pipeline that may be chosen, with its contract of the noise library; decisions in a countable type; everything is observed for finitely many decisions."
 },
 "C90": {
  "status": "proved",
  "note": "Calls of C62; the standard deviation of Gaussian noise and the threshold are functions of the library; wording is not modelled; VECTOR_SUM is a proved gap."
 },
 "C91": {
  "status": "proved",
  "note": "Continuous noise (ideal Laplace and Gaussian distributions; PyDP's discretised noise is a parameter of the trusted base). Numbers released by the calls of C63; for MEAN and VARIANCE the number computed from independent noisy numbers. The theorems for a single metric are for Laplace noise and public partitions; the general one also for Gaussian noise and private partitions."
 },
 "C92": {
  "status": "proved",
  "note": "Distribution of a release as in C62: fresh randomness of PyDP for each decision and each noise is in the trusted base. Ideal Laplace and Gaussian noise. Not for the thresholded PRIVACY_ID_COUNT itself. Numbers are the noisy ones (for MEAN and VARIANCE the noisy count and sums)."
 },
 "C93": {
  "status": "proved",
  "note": "Ideal Laplace and Gaussian noise (PyDP is in the trusted base). Pipelines made of add_dp_noise calls only; with other calls in the pipeline the share of epsilon is smaller (C54, C73)."
 },
 "C94": {
  "status": "proved",
  "note": "Ideal noise (PyDP in the trusted base). Exact arithmetic instead of numpy floats. The total-budget form is for a call alone in a pipeline; the other theorem is for any budget that the metric gets."
 },
 "C95": {
  "status": "proved",
  "note": "Naive accountant. An annotator is a function of the collection and its arguments that may add stages; it does not register annotators. A session ends at the first exception."
 },
 "C96": {
  "status": "proved",
  "note": "Pairwise independence and the laws of the samples are hypotheses about numpy's generators; np.quantile is modelled with its default method."
 },
 "C97": {
  "status": "proved",
  "note": "Covers LocalBackend, where values are passed by reference; dtypes are not modelled."
 },
 "C98": {
  "status": "proved",
  "note": "Any history for the sums and the criterion; any sequence of engine calls for the shares. Negative weights are accepted and break the guarantee of C01 (finding); C01, C62 and the properties on them assume positive weights."
 }
}