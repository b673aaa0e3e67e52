{"id": "C01", "title": "Naive accountant spends exactly the total epsilon", "statement": "After compute_budgets() on a NaiveBudgetAccountant whose requested mechanisms have positive weights and counts, the epsilons handed to the mechanisms, each multiplied by how many times the mechanism is used (count), add up to exactly total_epsilon; each mechanism's epsilon is positive, and the epsilons of mechanisms requested outside of scopes are in the ratio of their weights (for scopes see C04). With weights or counts of zero the total is never exceeded.", "quantifier": "for every sequence of request_budget calls (any mechanism types, weights, counts, any length), any scope nesting, any total epsilon > 0", "why_tests_cant": "A test fixes one list of mechanisms and weights; the claim is about every list of every length and every nesting of scopes.", "anchors": ["pipeline_dp/budget_accounting.py:NaiveBudgetAccountant.compute_budgets", "pipeline_dp/budget_accounting.py:NaiveBudgetAccountant.request_budget"]}
{"id": "C02", "title": "Naive accountant spends at most the total delta, only where it is usable", "statement": "After compute_budgets() the deltas handed out, multiplied by counts, add up to exactly total_delta if at least one requested mechanism uses delta, and every mechanism type that does not use delta (Laplace) receives delta 0. Requesting a delta-using mechanism from an accountant with total_delta = 0 is rejected for Gaussian.", "quantifier": "for every sequence of request_budget calls, every mix of mechanism types, any total delta", "why_tests_cant": "The delta split depends on the global mix of mechanism types across all aggregations of a pipeline; tests cover only a few mixes.", "anchors": ["pipeline_dp/budget_accounting.py:NaiveBudgetAccountant.compute_budgets", "pipeline_dp/budget_accounting.py:MechanismSpec.use_delta"]}
{"id": "C03", "title": "Budget lifecycle", "statement": "In any history of calls to an accountant, no mechanism epsilon/delta can be read before compute_budgets() was called, compute_budgets() succeeds at most once, and after it succeeded every request_budget and every second compute_budgets() raises and nothing (not even entering or leaving scopes) changes any already assigned epsilon or delta. A rejected request has no effect.", "quantifier": "for every finite history of request_budget / scope enter / scope exit / compute_budgets / read operations in any order", "why_tests_cant": "Tests exercise a handful of call orders; the claim ranges over all histories.", "anchors": ["pipeline_dp/budget_accounting.py:BudgetAccountant", "pipeline_dp/budget_accounting.py:BudgetAccountantScope", "pipeline_dp/budget_accounting.py:MechanismSpec.eps"]}
{"id": "C04", "title": "Scopes split budget by weight", "statement": "Mechanisms requested (with count 1) inside `with accountant.scope(weight=w)` together receive exactly the share of epsilon that one mechanism of weight w requested next to the scope would receive, whatever is requested inside and however scopes are nested, and inside the scope the shares are proportional to the weights.", "quantifier": "for every tree of nested scopes with positive weights and every list of mechanisms requested inside", "why_tests_cant": "Arbitrary nesting depth and arbitrary numbers of mechanisms cannot be enumerated.", "anchors": ["pipeline_dp/budget_accounting.py:BudgetAccountantScope.__exit__", "pipeline_dp/budget_accounting.py:BudgetAccountantScope._normalise_mechanism_weights"]}
{"id": "C05", "title": "Aggregation restrictions are enforced and the announced budget is the real one", "statement": "If an accountant is created with num_aggregations or aggregation_weights, compute_budgets() succeeds only when exactly the announced number of aggregations (with the announced weights) were run, and then the epsilon announced to each aggregation's output annotation equals the total epsilon its mechanisms actually receive. Without the restriction no budget is announced. The announced delta is total_delta times the aggregation's share even when the mechanisms of that aggregation actually receive more.", "quantifier": "for every number of aggregations, every list of aggregation weights and every list of mechanisms per aggregation", "why_tests_cant": "The equality couples the announcement made before the pipeline is complete with the split made at the end; tests check single literals.", "anchors": ["pipeline_dp/budget_accounting.py:BudgetAccountant._compute_budget_for_aggregation", "pipeline_dp/budget_accounting.py:BudgetAccountant._check_aggregation_restrictions", "pipeline_dp/dp_engine.py:DPEngine.aggregate"]}
{"id": "C06", "title": "PLD accountant never exceeds the total epsilon", "statement": "The noise standard deviation multiplier chosen by PLDBudgetAccountant (its minimum_noise_std) always satisfies composed_epsilon(minimum_noise_std) <= total_epsilon whenever the search terminates, for every composition oracle; and when the composed epsilon is monotone, a multiplier smaller by more than the search tolerance would exceed total_epsilon. If the oracle eventually drops below total_epsilon the search terminates.", "quantifier": "for every function from noise std to composed epsilon, every total epsilon, any number of search steps", "why_tests_cant": "The result of a floating binary search is checked by tests for a few mechanism lists; soundness for every composition function is an invariant claim.", "anchors": ["pipeline_dp/budget_accounting.py:PLDBudgetAccountant._find_minimum_noise_std", "pipeline_dp/budget_accounting.py:PLDBudgetAccountant._calculate_max_noise_std"]}
{"id": "C07", "title": "PLD accountant noise assignment", "statement": "In a PLDBudgetAccountant with delta = 0, the Laplace noise given to the mechanisms corresponds to epsilons that are proportional to the weights and add up to the total epsilon; otherwise every mechanism's noise std is minimum_noise_std * sensitivity / weight. What is composed is exactly what is granted if no thresholding mechanisms are requested and the GENERIC ones have weight equal to sensitivity. Gaps which are proved: the epsilon written for a GENERIC mechanism is the one that entered the composition only if its weight equals its sensitivity; Laplace mechanisms are composed as if their sensitivity was 1; thresholding mechanisms are left out or composed as a repetition of the mechanism before.", "quantifier": "for every list of requested mechanisms, weights and sensitivities", "why_tests_cant": "Tests use weight 1 mechanisms only; the mismatch for other weights is invisible to them.", "anchors": ["pipeline_dp/budget_accounting.py:PLDBudgetAccountant.compute_budgets", "pipeline_dp/budget_accounting.py:PLDBudgetAccountant._compose_distributions"]}
{"id": "C08", "title": "Cross and per partition bounding", "statement": "After contribution bounding with max_partitions_contributed = l0 and max_contributions_per_partition = linf, every privacy id appears in at most l0 partitions and has at most linf values in each, all surviving (id, partition, value) records come from the input (with multiplicity), and each (id, partition) pair appears once in the output.", "quantifier": "for every input collection, every l0, linf >= 1 and every outcome of the random sampling, on every backend whose sampler draws without replacement", "why_tests_cant": "Random sampling outcomes cannot be enumerated, a test sees one outcome per run.", "anchors": ["pipeline_dp/contribution_bounders.py:SamplingCrossAndPerPartitionContributionBounder.bound_contributions", "pipeline_dp/sampling_utils.py:choose_from_list_without_replacement"]}
{"id": "C09", "title": "Per privacy id bounding", "statement": "After contribution bounding with max_contributions = m, every privacy id has at most m records in total over all partitions, all of them input records.", "quantifier": "for every input collection, m >= 1, every sampling outcome", "why_tests_cant": "Random outcomes cannot be enumerated.", "anchors": ["pipeline_dp/contribution_bounders.py:SamplingPerPrivacyIdContributionBounder.bound_contributions"]}
{"id": "C10", "title": "Cross partition only bounding", "statement": "With per-partition sampling switched off (sum bounded per partition), every privacy id appears in at most max_partitions_contributed partitions and for each kept (id, partition) all of its input values are kept.", "quantifier": "for every input, l0 >= 1, every sampling outcome", "why_tests_cant": "Random outcomes cannot be enumerated.", "anchors": ["pipeline_dp/contribution_bounders.py:SamplingCrossPartitionContributionBounder.bound_contributions"]}
{"id": "C11", "title": "Per partition only bounding and no bounding", "statement": "With cross-partition bounding disabled, every (id, partition) pair of the input is kept exactly once with at most max_contributions_per_partition of its values; with no sampling at all every (id, partition) pair keeps exactly its input values.", "quantifier": "for every input, every linf >= 1, every sampling outcome", "why_tests_cant": "Random outcomes cannot be enumerated.", "anchors": ["pipeline_dp/contribution_bounders.py:LinfSampler.bound_contributions", "pipeline_dp/contribution_bounders.py:NoOpSampler.bound_contributions"]}
{"id": "C12", "title": "Bounding is lossless for users within the bounds", "statement": "A privacy id whose input already respects the bounds loses nothing: the multiset of its records is the same after every kind of contribution bounding.", "quantifier": "for every input, every sampling outcome and each bounder", "why_tests_cant": "The 'for all inputs within bounds and all random outcomes' quantifier is not testable.", "anchors": ["pipeline_dp/contribution_bounders.py:SamplingCrossAndPerPartitionContributionBounder", "pipeline_dp/contribution_bounders.py:SamplingPerPrivacyIdContributionBounder", "pipeline_dp/contribution_bounders.py:SamplingCrossPartitionContributionBounder", "pipeline_dp/contribution_bounders.py:LinfSampler"]}
{"id": "C13", "title": "Contribution bounding of one user does not depend on other users", "statement": "Removing all rows of one privacy id from the input leaves the bounded records of every other privacy id unchanged when the same random choices are made for them.", "quantifier": "for every input, every removed id, every assignment of random choices to privacy ids", "why_tests_cant": "It is a relational (two run) property over all random choices; this coupling is what makes the sensitivity argument valid.", "anchors": ["pipeline_dp/contribution_bounders.py"]}
{"id": "C14", "title": "COUNT sensitivity", "statement": "Adding or removing one privacy id changes the exact (pre-noise) COUNT of at most max_partitions_contributed partitions, each by at most max_contributions_per_partition, hence the L1 and L2 change is at most the sensitivities declared to the noise mechanism; under max_contributions the L1 change is at most max_contributions.", "quantifier": "for every dataset, every removed id, every bound, every sampling outcome", "why_tests_cant": "Differential privacy is a statement about all pairs of neighbouring datasets; tests look at single datasets.", "anchors": ["pipeline_dp/combiners.py:CountCombiner", "pipeline_dp/dp_computations.py:compute_sensitivities_for_count"]}
{"id": "C15", "title": "PRIVACY_ID_COUNT sensitivity", "statement": "Adding or removing one privacy id changes the exact PRIVACY_ID_COUNT of at most max_partitions_contributed partitions, each by at most 1, matching the declared sensitivities.", "quantifier": "for every dataset, removed id, sampling outcome", "why_tests_cant": "All pairs of neighbouring datasets.", "anchors": ["pipeline_dp/combiners.py:PrivacyIdCountCombiner", "pipeline_dp/dp_computations.py:compute_sensitivities_for_privacy_id_count"]}
{"id": "C16", "title": "SUM sensitivity", "statement": "If the engine does the contribution bounding, adding or removing one privacy id changes the exact clipped SUM of at most max_partitions_contributed partitions, each by at most linf = max(|min_sum|,|max_sum|) (per-partition clipping) or max(|min_value|,|max_value|) * max_contributions_per_partition (per-value clipping, also with max_contributions and with bounds enforced by the caller), matching the declared sensitivities. Bounds which are both 0, and per-partition clipping with max_contributions, raise ValueError. Gap which is proved: with contribution_bounds_already_enforced and per-partition clipping the declared sensitivity does not cover the change.", "quantifier": "for every dataset with arbitrary values, every removed id, every bounds, every sampling outcome", "why_tests_cant": "All pairs of neighbouring datasets and all values.", "anchors": ["pipeline_dp/combiners.py:SumCombiner", "pipeline_dp/dp_computations.py:compute_sensitivities_for_sum"]}
{"id": "C17", "title": "MEAN and VARIANCE sensitivity", "statement": "For MEAN the exact normalised sum (sum of clipped value minus middle) changes per partition by at most the sensitivity used for its noise when one id is added or removed. For VARIANCE the same is required for the sum of squares; the code's sensitivity for the normalised sum of squares, taken from the squares of the raw range, is smaller than the true change for ranges around zero.", "quantifier": "for every dataset, range, removed id, sampling outcome", "why_tests_cant": "All pairs of neighbouring datasets; existing tests check only the noise scale formula.", "anchors": ["pipeline_dp/combiners.py:MeanCombiner", "pipeline_dp/combiners.py:VarianceCombiner", "pipeline_dp/dp_computations.py:compute_dp_var", "pipeline_dp/dp_computations.py:compute_squares_interval"]}
{"id": "C18", "title": "VECTOR_SUM sensitivity", "statement": "The noise of VECTOR_SUM must cover the change caused by one privacy id. The code clips only the final vector per partition and calibrates noise to max_partitions_contributed and max_contributions_per_partition without using the norm of the vectors, so one id can change a coordinate by more than the declared Linf sensitivity.", "quantifier": "for every dataset of vectors, norm kind, max_norm", "why_tests_cant": "All pairs of neighbouring datasets.", "anchors": ["pipeline_dp/combiners.py:VectorSumCombiner", "pipeline_dp/dp_computations.py:add_noise_vector", "pipeline_dp/dp_computations.py:_clip_vector"]}
{"id": "C19", "title": "Accumulator merging is order independent", "statement": "For every built-in combiner (COUNT, PRIVACY_ID_COUNT, SUM, MEAN, VARIANCE, VECTOR_SUM and compounds of them) the accumulator obtained for a partition does not depend on the order or tree shape in which a backend merges the per-user accumulators.", "quantifier": "for every list of accumulators, every permutation, every binary merge tree", "why_tests_cant": "The number of merge trees is exponential and backend dependent.", "anchors": ["pipeline_dp/combiners.py:CompoundCombiner.merge_accumulators", "pipeline_dp/combiners.py:AdditiveCombiner", "pipeline_dp/pipeline_backend.py:LocalBackend.combine_accumulators_per_key"]}
{"id": "C20", "title": "Compound accumulator counts privacy ids", "statement": "The row count carried by the compound accumulator of a partition equals the number of bounded (privacy id, partition) pairs merged into it (empty public partition accumulators included as one each), and each inner accumulator is the merge of the same inner accumulators.", "quantifier": "for every list of per-user values and every merge tree", "why_tests_cant": "Quantifies over all datasets and merge trees; the private partition selection relies on it.", "anchors": ["pipeline_dp/combiners.py:CompoundCombiner.create_accumulator", "pipeline_dp/combiners.py:CompoundCombiner.merge_accumulators", "pipeline_dp/dp_engine.py:DPEngine._select_private_partitions_internal"]}
{"id": "C21", "title": "Requested metrics, released metrics and requested budgets agree", "statement": "For every set of metrics in AggregateParams, the metric names released for a partition are exactly the requested ones, with MEAN releasing count/sum once even if COUNT/SUM are also requested (VARIANCE likewise with mean), no name appears twice, and exactly one budget is requested per noise mechanism that releases data.", "quantifier": "for every subset of metrics, every percentile list, every other parameter", "why_tests_cant": "2^n metric subsets times parameter combinations; tests cover a few.", "anchors": ["pipeline_dp/combiners.py:create_compound_combiner", "pipeline_dp/combiners.py:CompoundCombiner.compute_metrics"]}
{"id": "C22", "title": "Noise-free MEAN and VARIANCE are the clipped mean and variance", "statement": "With zero noise, MEAN releases exactly count, sum and mean of the clipped values of a partition, and VARIANCE the population variance of the clipped values.", "quantifier": "for every list of values and every range with min < max", "why_tests_cant": "All inputs; algebraic identity.", "anchors": ["pipeline_dp/combiners.py:MeanCombiner", "pipeline_dp/combiners.py:VarianceCombiner", "pipeline_dp/dp_computations.py:compute_dp_var", "pipeline_dp/dp_computations.py:MeanMechanism.compute_mean"]}
{"id": "C23", "title": "Public partitions are exactly the output", "statement": "When public partitions are given, the engine computes exactly one entry for each distinct public partition, none for another partition, and the exact aggregate of each entry uses exactly the bounded rows of that partition (for aggregates whose empty accumulator is neutral). Without post-aggregation thresholding these entries are the output of aggregate(). With it (scalar metrics, data within the bounds) each public partition is still subject to the thresholding for its number of distinct privacy ids, 0 if it has none, so a public partition is in the output only if the thresholding keeps it.", "quantifier": "for every dataset, every list of public partitions (with duplicates and partitions missing from the data)", "why_tests_cant": "All datasets and lists.", "anchors": ["pipeline_dp/dp_engine.py:DPEngine._aggregate", "pipeline_dp/dp_engine.py:DPEngine._drop_partitions", "pipeline_dp/dp_engine.py:DPEngine._add_empty_public_partitions"]}
{"id": "C24", "title": "Private partition selection only releases partitions via the selector", "statement": "Without public partitions, without post-aggregation thresholding and if the partitions are not declared as filtered already, every released partition is present in the bounded data, appears once, and was accepted by the partition selection mechanism on a user count estimate which never exceeds the true number of contributing privacy ids, is at least 1, and equals the true number when the engine bounds the contributions or at most one row per id is allowed. With thresholding or with partitions declared as filtered already, the selection mechanism is not consulted and exactly the partitions with bounded data go on.", "quantifier": "for every dataset, every sampling outcome, every selection mechanism behaviour", "why_tests_cant": "All datasets and selection outcomes.", "anchors": ["pipeline_dp/dp_engine.py:DPEngine._select_private_partitions_internal", "pipeline_dp/dp_engine.py:DPEngine._aggregate"]}
{"id": "C25", "title": "select_partitions releases distinct data partitions and counts each user once per partition", "statement": "select_partitions() returns distinct partition keys from the data, each privacy id influences the user count of at most max_partitions_contributed partitions and each by at most 1, and each released partition was accepted by the selector on exactly the number of distinct bounded ids.", "quantifier": "for every dataset with repeated rows, every sampling outcome, every selector", "why_tests_cant": "All datasets and neighbouring pairs.", "anchors": ["pipeline_dp/dp_engine.py:DPEngine.select_partitions"]}
{"id": "C26", "title": "AggregateParams accepts exactly the documented parameter combinations", "statement": "Constructing AggregateParams succeeds if and only if the documented conditions on value bounds, sum bounds, contribution bounds, metrics and weights hold.", "quantifier": "for every combination of parameter values", "why_tests_cant": "The parameter space is infinite with many interacting optional fields.", "anchors": ["pipeline_dp/aggregate_params.py:AggregateParams.__post_init__"]}
{"id": "C27", "title": "Invalid privacy parameters are rejected everywhere", "statement": "Every entry point that takes (epsilon, delta) accepts numbers (not NaN) if and only if epsilon > 0 and 0 <= delta < 1 and its further documented conditions hold. Gap which is proved: NaN is accepted.", "quantifier": "for every epsilon, delta", "why_tests_cant": "Infinite value space.", "anchors": ["pipeline_dp/input_validators.py:validate_epsilon_delta", "pipeline_dp/budget_accounting.py:BudgetAccountant"]}
{"id": "C28", "title": "Equal budget split conserves the budget", "statement": "equally_split_budget returns exactly the requested number of positive parts whose epsilons and deltas sum to the input, and rejects non-positive counts.", "quantifier": "for every eps, delta and number of parts", "why_tests_cant": "All part counts.", "anchors": ["pipeline_dp/dp_computations.py:equally_split_budget"]}
{"id": "C29", "title": "Exponential mechanism is epsilon-DP", "statement": "For every pair of score vectors whose entries differ by at most the global sensitivity (all in one direction if declared monotonic), the selection probabilities of the exponential mechanism differ by a factor of at most e^eps for every candidate.", "quantifier": "for every score vector of every length, every eps > 0", "why_tests_cant": "A statement on all pairs of neighbouring score vectors over the reals.", "anchors": ["pipeline_dp/dp_computations.py:ExponentialMechanism"]}
{"id": "C30", "title": "L0 scoring function sensitivity and monotonicity", "statement": "The score used for privately choosing max_partitions_contributed changes by at most its declared global sensitivity when one privacy id is added or removed, and always in the same direction as declared (monotonic).", "quantifier": "for every L0 histogram/dataset, every candidate bound, every added or removed id", "why_tests_cant": "All neighbouring datasets.", "anchors": ["pipeline_dp/private_contribution_bounds.py:L0ScoringFunction"]}
{"id": "C31", "title": "Possible contribution bounds", "statement": "generate_possible_contribution_bounds(upper) returns in strictly increasing order exactly the integers in [1, upper] that have at most three significant digits (all others are zeros at the end), i.e. the bin lower ends of the L0 histogram.", "quantifier": "for every upper bound >= 1", "why_tests_cant": "Unbounded upper bound; the in-sync requirement is only stated in a comment.", "anchors": ["pipeline_dp/private_contribution_bounds.py:generate_possible_contribution_bounds", "pipeline_dp/dataset_histograms/count_histogram_computation.py:_to_bin_lower_upper_logarithmic"]}
{"id": "C32", "title": "Logarithmic histogram bins tile the positive integers", "statement": "Every positive integer lies in its bin [lower, upper), two integers are in the same bin or in disjoint bins, and every integer of a bin maps to the same bin.", "quantifier": "for every positive integer", "why_tests_cant": "Infinite domain.", "anchors": ["pipeline_dp/dataset_histograms/count_histogram_computation.py:_to_bin_lower_upper_logarithmic"]}
{"id": "C33", "title": "Count histograms preserve the data", "statement": "A frequency histogram has one bin per occupied bin range sorted by lower bound, bin counts add up to the number of values, bin sums add up to the total, and each bin's max/min are attained by values of that bin.", "quantifier": "for every multiset of positive integers and every reduction order", "why_tests_cant": "All inputs.", "anchors": ["pipeline_dp/dataset_histograms/count_histogram_computation.py:_compute_frequency_histogram_helper", "pipeline_dp/dataset_histograms/histograms.py:Histogram"]}
{"id": "C34", "title": "Histogram quantiles", "statement": "quantiles(q) returns for each q the lower bound of the right-most bin such that at most a fraction q of the data lies strictly to its left; results are monotone in q; an empty histogram is rejected.", "quantifier": "for every histogram and sorted list of quantiles in [0, 1]", "why_tests_cant": "All inputs.", "anchors": ["pipeline_dp/dataset_histograms/histograms.py:Histogram.quantiles"]}
{"id": "C35", "title": "Ratio of dropped data", "statement": "compute_ratio_dropped reports for each threshold t (each bin lower bound) exactly sum(max(x - t, 0))/sum(x) over the data of the histogram; thresholds are increasing from 0 and ratios non-increasing from 1 to 0.", "quantifier": "for every multiset of positive integers", "why_tests_cant": "All inputs.", "anchors": ["pipeline_dp/dataset_histograms/histograms.py:compute_ratio_dropped"]}
{"id": "C36", "title": "Histograms on pre-aggregated data equal histograms on raw data", "statement": "The L0, L1, Linf, count-per-partition and privacy-id-per-partition histograms computed from the output of preaggregate() (without sampling) equal those computed from the raw rows.", "quantifier": "for every raw dataset", "why_tests_cant": "All datasets; the pre-aggregated route uses weighted 1/n counting.", "anchors": ["analysis/pre_aggregation.py:preaggregate", "pipeline_dp/dataset_histograms/count_histogram_computation.py"]}
{"id": "C37", "title": "Label uniqueness", "statement": "The stage names generated for a Beam pipeline are pairwise distinct and generation always terminates.", "quantifier": "for every sequence of requested stage names of any length, including None and names that look like generated ones", "why_tests_cant": "All sequences of names.", "anchors": ["pipeline_dp/pipeline_backend.py:UniqueLabelsGenerator"]}
{"id": "C38", "title": "Backend key filtering agrees", "statement": "filter_by_key keeps exactly the rows whose key is in the given key collection, on the local backend and Beam; on Spark with a distributed key collection a key listed k times multiplies the rows k times.", "quantifier": "for every collection and key collection", "why_tests_cant": "All inputs including duplicated keys.", "anchors": ["pipeline_dp/pipeline_backend.py:LocalBackend.filter_by_key", "pipeline_dp/pipeline_backend.py:BeamBackend.filter_by_key", "pipeline_dp/pipeline_backend.py:SparkRDDBackend.filter_by_key"]}
{"id": "C39", "title": "sample_fixed_per_key", "statement": "sample_fixed_per_key(col, n) yields every key once with min(n, number of its values) of its own values, for the local backend and for the Spark reduction in any order. (Gap: on Spark the sample is not uniform: whatever the reduction tree, no one of m values is kept with probability 1/m for n = 1 unless m is a power of two.)", "quantifier": "for every collection, n >= 1, every random outcome, every reduction tree", "why_tests_cant": "All reduction trees and random outcomes.", "anchors": ["pipeline_dp/pipeline_backend.py:LocalBackend.sample_fixed_per_key", "pipeline_dp/pipeline_backend.py:SparkRDDBackend.sample_fixed_per_key"]}
{"id": "C40", "title": "Multi-process local backend counting", "statement": "Counting elements with the multi-process local backend must equal the sequential count for every interleaving of worker processes; the read-modify-write on the shared dictionary loses updates under some interleavings, while appending/grouping does not.", "quantifier": "for every interleaving of any number of workers", "why_tests_cant": "Interleavings cannot be forced by tests.", "anchors": ["pipeline_dp/pipeline_backend.py:MultiProcLocalBackend", "pipeline_dp/pipeline_backend.py:_LazyMultiProcCountIterator"]}
{"id": "C41", "title": "Deterministic value sampling", "statement": "ValueSampler.keep(v) depends only on v and the rate; a value kept at a rate is kept at every larger rate; rate 1 keeps every value and rate 0 none.", "quantifier": "for every value and rate", "why_tests_cant": "All values.", "anchors": ["pipeline_dp/sampling_utils.py:ValueSampler"]}
{"id": "C42", "title": "Poisson binomial distribution", "statement": "compute_pmf(ps) returns the probability mass function of the number of successes of independent trials with probabilities ps: entry k is the sum over k-subsets of the product of probabilities; entries are non-negative and sum to 1.", "quantifier": "for every list of probabilities of every length", "why_tests_cant": "All lists.", "anchors": ["analysis/poisson_binomial.py:compute_pmf"]}
{"id": "C43", "title": "Per-partition error decomposition", "statement": "The utility analysis metrics of a partition satisfy: sum + clipping_to_min_error + clipping_to_max_error + expected_l0_bounding_error equals the expectation, over uniform random choice of the kept partitions of every user, of the contribution-bounded sum, and std_l0_bounding_error squared is its variance.", "quantifier": "for every dataset, bounds", "why_tests_cant": "Expectation over all sampling outcomes for all datasets.", "anchors": ["analysis/per_partition_combiners.py:SumCombiner.create_accumulator", "analysis/metrics.py:SumMetrics"]}
{"id": "C44", "title": "Sparse and dense accumulators agree", "statement": "The metrics computed by the utility analysis compound combiner do not depend on when the accumulator switches from the sparse to the dense representation, i.e. on the merge order and tree: they equal the metrics of the list of all users. The exception is the analysis of several value columns with public partitions: an empty accumulator merged after the switch makes the analysis of that partition fail with an IndexError, merged first it does not. Private partition selection is analysed only for partitions with at least one user; without any the analysis fails with an AttributeError.", "quantifier": "for every list of per-user inputs and every merge tree", "why_tests_cant": "All merge trees and switching points.", "anchors": ["analysis/per_partition_combiners.py:CompoundCombiner"]}
{"id": "C45", "title": "Cross-partition averaging and data-drop accounting", "statement": "Every error in the utility report is the weighted mean over the partitions of the per-partition error (bias, variance, root mean square error and their relative versions), for every merge order; the reported dropped data plus the data expected to survive add up to the total exactly when no value is clipped from below (or the partition is never kept). With public partitions the report counts the partitions with and without data and has no number of kept partitions; with private partitions it has the number of partitions, the mean and the variance of the number of kept ones, and no number of empty ones.", "quantifier": "for every list of per-partition metrics, every merge tree", "why_tests_cant": "All inputs.", "anchors": ["analysis/cross_partition_combiners.py"]}
{"id": "C46", "title": "Tuning candidates", "statement": "Candidate bounds generated for tuning from a histogram of counts are strictly increasing integers from 1 to the maximum of the histogram, the first is 1 and the last the maximum (when two or more are asked for; a single candidate is 1); candidates for sums are increasing maxima of bins. A tuning configuration never has more candidates than asked for, all its lists have equal length and it is the full cross product of the bounds on partitions and the bounds per partition; counts with non-empty histograms, and sums of one column whose first or second bin has a positive maximum, always succeed. The recommended index is the first one with the smallest error. Gaps: with more columns than candidates tuning always fails, and a sum histogram with two non-positive bins gives a non-positive upper bound.", "quantifier": "for every histogram, candidate budget, and every rounding behaviour of the floating point power", "why_tests_cant": "All inputs and rounding behaviours.", "anchors": ["analysis/parameter_tuning.py:_find_candidates_constant_relative_step", "analysis/parameter_tuning.py:_find_candidate_parameters"]}
{"id": "C47", "title": "DP strategy selection", "statement": "The DP strategy selector accepts exactly valid budgets (delta > 0 for private partitions) and then always finds a strategy: the noise kind with the smaller standard deviation for the (half) budget and n times the partitions for n metrics, Laplace when delta is 0; post-aggregation thresholding exactly with PRIVACY_ID_COUNT and private partitions, with the thresholding of the same noise; no partition selection strategy for metrics with public partitions. Every configuration gets the strategy for its own max_partitions_contributed. With several metrics the chosen noise kind is not always the best for the share of the budget which each metric gets.", "quantifier": "for every eps, delta, metric list, sensitivities", "why_tests_cant": "All parameter combinations.", "anchors": ["analysis/dp_strategy_selector.py:DPStrategySelector"]}
{"id": "C48", "title": "Public partitions summary", "statement": "compute_public_partitions_summary counts dataset partitions that are public, dataset partitions that are not, and public partitions without data exactly when public partitions are listed without duplicates; with duplicates an absent public partition can be counted as present.", "quantifier": "for every dataset and every list of public partitions", "why_tests_cant": "All inputs.", "anchors": ["analysis/dataset_summary.py:compute_public_partitions_summary"]}
{"id": "C49", "title": "Private collections keep privacy ids", "statement": "Map and FlatMap on a private collection keep, for every element, the privacy id of the element it was derived from; nothing else can change the id.", "quantifier": "for every chain of map/flat_map operations, every dataset", "why_tests_cant": "All operation sequences.", "anchors": ["pipeline_dp/private_beam.py:Map", "pipeline_dp/private_beam.py:FlatMap", "pipeline_dp/private_spark.py:PrivateRDD.map"]}
{"id": "C50", "title": "Wrapper transforms forward the user's parameters", "statement": "The Beam and Spark wrappers pass every field of the user's parameter object on to the aggregation, with exactly these exceptions, which are proved: Beam drops budget_weight and contribution_bounds_already_enforced, CombinePerKey drops budget_weight and public_partitions, Spark drops pre_threshold and, for PRIVACY_ID_COUNT, budget_weight; select_partitions on Spark drops budget_weight, the partition selection strategy and pre_threshold.", "quantifier": "for every parameter object", "why_tests_cant": "All parameter values; tests check only a few fields.", "anchors": ["pipeline_dp/private_beam.py", "pipeline_dp/private_spark.py"]}
{"id": "C51", "title": "DataFrame query builder", "statement": "build_query accepts exactly the queries with a groupby, at least one aggregation, no repeated aggregation, at most one input column and consistent value caps; the output columns are the group-by columns followed by one column per aggregation, each holding the value of its metric. A group-by given as a one-element list unpacks the key itself instead of a tuple.", "quantifier": "for every sequence of builder calls", "why_tests_cant": "All call sequences.", "anchors": ["pipeline_dp/dataframes.py:QueryBuilder", "pipeline_dp/dataframes.py:Query.run_query"]}
{"id": "C52", "title": "Sum histogram buckets", "statement": "For a sum histogram on [left, right] every value falls into a bucket whose bounds contain it, bucket indices are within range, the buckets tile the interval, and bin counts add up to the number of values.", "quantifier": "for every list of values and number of buckets", "why_tests_cant": "All inputs (exact arithmetic).", "anchors": ["pipeline_dp/dataset_histograms/sum_histogram_computation.py:LowerUpperGenerator"]}
{"id": "C53", "title": "Error estimator interpolation", "statement": "The estimated dropped ratio for a bound is in [0, 1], equals the exact ratio at histogram thresholds, is 1 for non-positive bounds, 0 beyond the maximum, and never increases when the bound grows. It is never below the exact ratio. For an empty dataset it fails for every positive bound.", "quantifier": "for every histogram of a non-empty dataset of positive integers and every bound", "why_tests_cant": "All inputs.", "anchors": ["pipeline_dp/dataset_histograms/histogram_error_estimator.py:ErrorEstimator._get_ratio_dropped"]}
{"id": "C54", "title": "add_dp_noise", "statement": "DPEngine.add_dp_noise adds noise exactly once per (partition, value), with the sensitivities given by the user and the budget of one mechanism, and keeps every key in order; before the budget is computed evaluation fails. Two defects: budget_weight is announced to the accountant's checks and annotations but not used, so every call gets the same share; a call with only one of the two sensitivities is rejected only after it took its share of the budget.", "quantifier": "for every collection and parameters", "why_tests_cant": "All inputs.", "anchors": ["pipeline_dp/dp_engine.py:DPEngine.add_dp_noise"]}
{"id": "C55", "title": "Multi-parameter configuration", "statement": "A multi-parameter configuration is accepted only if all given lists have the same length, and the i-th derived parameters take exactly the i-th element of each given list and the blueprint value for the others, provided that the lower and upper sum bounds are of the same kind (both numbers or both sequences per configuration); otherwise deriving parameters fails although the configuration was accepted.", "quantifier": "for every configuration and index", "why_tests_cant": "All inputs.", "anchors": ["analysis/data_structures.py:MultiParameterConfiguration"]}
{"id": "C56", "title": "Report buckets", "statement": "Every partition size is put in the report bucket [from, to) that contains it and in no other, buckets tile the non-negative integers; per-partition results are assigned to their configurations; and on every backend the utility analysis gives exactly one report per configuration, computed from all partitions, whose histogram bins are increasing and each computed from exactly the partitions whose number of privacy ids lies in the bin.", "quantifier": "for every partition size and number of configurations and metrics", "why_tests_cant": "All inputs.", "anchors": ["analysis/utility_analysis.py:_get_lower_bound", "analysis/utility_analysis.py:_pack_per_partition_metrics"]}
{"id": "C57", "title": "Key filtering with sharding, min/max and size helpers", "statement": "The composite helper functions compute the per-key minimum and maximum, the collection size (an empty collection, not 0, for an empty collection), and the sharded key filter keeps exactly the rows of the plain filter.", "quantifier": "for every collection and number of shards", "why_tests_cant": "All inputs.", "anchors": ["pipeline_dp/pipeline_functions.py"]}
{"id": "C58", "title": "Sensitivities and mechanisms", "statement": "Sensitivities are accepted exactly when all given values are positive, L0 and Linf are given together and L1, L2 agree with them up to 1e-12; L1 = L0*Linf and L2 = sqrt(L0)*Linf when derived. The mechanism created from them is calibrated to exactly these: Laplace with scale L1/eps, Gaussian for L2, or the accountant's deviation times the sensitivity; it fails exactly when the needed sensitivity is missing. Laplace noise calibrated this way changes the joint density of all noisy values by at most exp(eps) when one privacy id is removed. The tolerance is absolute, so small inconsistent sensitivities are accepted.", "quantifier": "for every combination of optional sensitivities", "why_tests_cant": "All combinations of optional values.", "anchors": ["pipeline_dp/dp_computations.py:Sensitivities", "pipeline_dp/dp_computations.py:create_additive_mechanism"]}
{"id": "C59", "title": "Explain computation report", "statement": "explain_computations_report returns one report per engine call in call order; each lists exactly the stages of its own call, in the order in which they were added, numbered from 1, and an aggregation lists partition selection, filtering to public partitions, empty partitions, metrics and thresholding iff they are performed. Gaps: cross-partition bounding is not listed when the metrics bound contributions per partition themselves; while any stage cannot be evaluated no report is available, and text() raises NameError instead of the documented ValueError. The line on contributions per user (max_contributions) is right. Defect: the lines on contributions per partition and on partitions say that max(actual, bound) are selected, although min(actual, bound) are; the number named is the number kept only where the actual number is the bound itself.", "quantifier": "for every sequence of added stages", "why_tests_cant": "All sequences.", "anchors": ["pipeline_dp/report_generator.py:ReportGenerator"]}
{"id": "C60", "title": "A whole pipeline is epsilon-differentially private", "statement": "Take any number of aggregate() calls with public partitions and Laplace noise on one dataset, metrics among COUNT, PRIVACY_ID_COUNT, SUM, MEAN and VARIANCE (outside the parameter ranges in which C15-C17 show that noise is too small), and one NaiveBudgetAccountant with total epsilon e. Then the driver code and compute_budgets succeed, all results can be evaluated, the set of released numbers depends only on the parameters, and for every event the probabilities on the dataset and on the dataset without all rows of one privacy id differ by a factor of at most exp(e), in both directions, counting the random sampling of contribution bounding and the noise of all calls together.", "quantifier": "for all pipelines, parameters, weights, announcements, datasets, privacy ids, backends and runners within their contract, distributions of sampling, and events", "why_tests_cant": "Statement about all datasets and about probability distributions; it needs the accountant, contribution bounding, accumulators, sensitivities and mechanisms to fit together.", "anchors": ["pipeline_dp/dp_engine.py:DPEngine.aggregate", "pipeline_dp/combiners.py:create_compound_combiner", "pipeline_dp/budget_accounting.py:NaiveBudgetAccountant", "pipeline_dp/dp_computations.py:create_additive_mechanism", "pipeline_dp/dp_computations.py:compute_dp_var"]}
{"id": "C61", "title": "Data within the bounds is aggregated exactly", "statement": "If no privacy id exceeds the contribution bounds of aggregate() (counting only rows of public partitions, if given), then the number to which noise is added in each output partition is the true aggregate: COUNT the number of rows, PRIVACY_ID_COUNT the number of distinct ids, SUM the sum of the clipped values (with bounds per partition: the sum over ids of the clipped sum of all their values, without a limit on rows per partition; with public partitions each listing of a partition adds the clipped sum of no values, so that for bounds in the right order the result is exact if and only if 0 is within the bounds), MEAN and VARIANCE the count, sum and sum of squares of the distances of clipped values to the middle of the range, VECTOR_SUM (private partitions) the coordinate-wise sum. Nothing depends on the backend, on sampling, or on the order of merging. PRIVACY_ID_COUNT and SUM with bounds per partition are stated for bounds which the engine enforces.", "quantifier": "for all datasets within the bounds, parameters, sets of metrics, public partitions, backends, random choices and merge trees", "why_tests_cant": "A test compares a few small datasets on one backend; a row lost or clipped twice in a rare combination of bounds, metrics and partitions is hidden by noise.", "anchors": ["pipeline_dp/dp_engine.py:DPEngine._aggregate", "pipeline_dp/contribution_bounders.py", "pipeline_dp/combiners.py"]}
{"id": "C62", "title": "A whole pipeline with private partitions is (epsilon, delta)-differentially private", "statement": "Take any number of aggregate() and select_partitions() calls on one dataset and one NaiveBudgetAccountant with total budget (e, d): with public partitions, private partition selection or post-aggregation thresholding, with Laplace or Gaussian noise, metrics among COUNT, PRIVACY_ID_COUNT, SUM, MEAN and VARIANCE (outside the parameter ranges in which C15-C17 show that noise is too small), and d > 0 if a call needs it. Then no call of the driver code and of the accountant raises an exception, all results can be evaluated, and if PyDP's Gaussian noise, partition selection and thresholding each are (epsilon, delta)-differentially private for the arguments they get, then for every event on everything that is released (which partitions, and their noisy numbers) the probability p on the dataset and the probability q on the dataset without all rows of one privacy id satisfy p <= exp(e) q + d and q <= exp(e) p + d, counting the random sampling of contribution bounding, the selection and the noise of all calls together.", "quantifier": "for all pipelines, parameters, weights, announcements, datasets, privacy ids, backends and runners within their contract, distributions of sampling, libraries within their contract, and events", "why_tests_cant": "Statement about all datasets and about probability distributions; it needs the accountant, contribution bounding, accumulators, sensitivities, selection and mechanisms to fit together, and the arguments passed to the library to be the ones for which its guarantee holds.", "anchors": ["pipeline_dp/dp_engine.py:DPEngine.aggregate", "pipeline_dp/dp_engine.py:DPEngine.select_partitions", "pipeline_dp/dp_engine.py:DPEngine._select_private_partitions_internal", "pipeline_dp/combiners.py:create_compound_combiner", "pipeline_dp/combiners.py:PostAggregationThresholdingCombiner", "pipeline_dp/budget_accounting.py:NaiveBudgetAccountant", "pipeline_dp/dp_computations.py:create_thresholding_mechanism"]}
{"id": "C63", "title": "Every call of a pipeline gets its share of the budget and releases the exact values with noise of the documented size", "statement": "Take the pipelines of C62, each aggregate() with at least one metric. The epsilon of a call is the total epsilon times budget_weight of the call divided by the sum of the weights of all calls; within a call it is divided equally among the metrics' mechanisms (two for MEAN), where partition selection counts with weight 1 against budget_weight for each mechanism; delta is divided in the same proportions among the mechanisms that use it. The released metrics are the requested ones, each once. If the data is within the contribution bounds, then no exception is raised and, whatever the backend, random choices and order of merging, the candidates for release are exactly the public partitions, or else the partitions of the data, each once; decisions are made with the true number of privacy ids (or, if the bounds are already enforced, the rows divided by the bound per partition, rounded up); and each released number is the exact aggregate of the clamped values plus noise whose scale is the product of bounds divided by that epsilon for Laplace, or PyDP's deviation for that epsilon, delta and the L2 change for Gaussian noise; VARIANCE divides its budget by three.", "quantifier": "for all pipelines, parameters, weights, announcements, datasets within the bounds, backends and runners within their contract, random choices and merge orders", "why_tests_cant": "Noise hides lost rows and wrong scales; a too small share of the budget for one call among many with nested scopes only shows as more noise, which no functional test notices.", "anchors": ["pipeline_dp/dp_engine.py:DPEngine.aggregate", "pipeline_dp/dp_engine.py:DPEngine.select_partitions", "pipeline_dp/dp_engine.py:DPEngine._select_private_partitions_internal", "pipeline_dp/combiners.py:create_compound_combiner", "pipeline_dp/budget_accounting.py:NaiveBudgetAccountant", "pipeline_dp/dp_computations.py"]}
{"id": "C64", "title": "The utility analysis predicts what the engine would compute", "statement": "UtilityAnalysisEngine.analyze reports each (sampled) partition of the data and each public partition exactly once, and its metrics depend only on the users of the partition with their numbers of rows, sums of values and numbers of partitions among the relevant rows, whatever the backend and the order of merging. Take the engine with one of the analysed configurations on the same rows, such that each user independently keeps a uniformly random choice of at most max_partitions_contributed of its partitions. For COUNT and PRIVACY_ID_COUNT, and for SUM with bounds per partition unless rows are sampled in the same aggregation: the reported true value plus the clipping errors plus the expected cross-partition error is the expectation of the value which the engine computes before noise, and the reported variance is its variance; without cross-partition bounding the value is predicted exactly. With at most 100 users and private selection, the reported probability of keeping the partition is the probability that the engine releases it. Without public partitions, the analysis of pre-aggregated data equals that of the rows. (Defects: with partition sampling, a public partition which is not sampled is reported as empty; with public partitions, pre-aggregated data counts the dropped partitions of a user.)", "quantifier": "for all rows, configurations, combiners, value columns, public partitions, backends within their contract, merge orders, probability spaces of executions with uniform independent choices, and selectors", "why_tests_cant": "The prediction is a statement on the distribution of all executions of the engine; tests compare the formulas with themselves or with a simulation of one small case.", "anchors": ["analysis/utility_analysis_engine.py:UtilityAnalysisEngine.analyze", "analysis/contribution_bounders.py:L0LinfAnalysisContributionBounder", "analysis/contribution_bounders.py:LinfAnalysisContributionBounder", "analysis/per_partition_combiners.py:SumCombiner", "analysis/per_partition_combiners.py:PartitionSelectionCombiner", "analysis/pre_aggregation.py:preaggregate", "pipeline_dp/dp_engine.py:DPEngine.aggregate"]}
{"id": "C65", "title": "The utility analysis reports noise, selection and averages of the engine run with the same budget", "statement": "perform_utility_analysis with a total budget (epsilon, delta) gives every configuration the whole budget, divided equally among partition selection and the metrics (delta among those that use it). For a single configuration with the default budget weight (any weight for public partitions), the standard deviation of the noise it reports for COUNT, SUM and PRIVACY_ID_COUNT is that of the noise with which a pipeline with this one aggregate() call and the same budget releases the metric, and the probability of keeping a partition is asked with the strategy, epsilon, delta, bound and pre-threshold with which that pipeline selects partitions. For supported options and data, whatever the backend, order of merging and partition sampling, the analysis succeeds: each analysed partition is described exactly once per configuration, with its size, probability to be kept, errors and noise of its own users under that configuration; there is one report per configuration (none if there is no partition), with its strategy if partitions are selected; it contains the numbers of partitions and the averages of the errors over all partitions weighted by their probabilities to be kept, and each bin those over exactly the partitions with a number of privacy ids in the bin; each partition is in exactly one bin. Metrics other than COUNT, SUM and PRIVACY_ID_COUNT, enforced contribution bounds and post-aggregation thresholding are rejected with NotImplementedError. Defects which are proved: budget_weight is ignored, so for private partitions and another weight the predicted noise is wrong; SUM with bounds on the values only, and parameters with max_contributions, are accepted by aggregate() but their analysis fails on any data; an empty list of strategies makes the analysis of private partitions fail; bounds on sums given by a configuration for parameters with bounds on values are used for clipping, but not for the predicted noise.", "quantifier": "for all options, configurations, budgets, columns, rows, public partitions, backends within their contract, merge orders, noise calibrations, selection probabilities and partition samplings", "why_tests_cant": "Tests check the numbers of one small dataset and configuration; that predicted noise and selection match the budget division of another component for all metrics, and that averages over all partitions and configurations are not mixed up, is a relation between two engines.", "anchors": ["analysis/utility_analysis.py:perform_utility_analysis", "analysis/utility_analysis.py:_pack_per_partition_metrics", "analysis/utility_analysis_engine.py:UtilityAnalysisEngine._create_compound_combiner", "analysis/per_partition_combiners.py", "analysis/cross_partition_combiners.py", "analysis/data_structures.py", "pipeline_dp/dp_engine.py:DPEngine.aggregate"]}
{"id": "C66", "title": "A privately chosen bound followed by aggregations has the sum of the two privacy losses", "statement": "Choose max_partitions_contributed with DPEngine.calculate_private_contribution_bounds with calculation_eps for given public partitions, and then run any pipeline of C62 on the same data, with an accountant with total budget (e, d), whose calls and parameters depend on the chosen bound in any way. Then the chosen bound and everything that is released are together (calculation_eps + e, d)-differentially private. (Gap: calculation_eps is not requested from the accountant, so the whole is in general not (e, d)-private: for every e there is a calculation_eps with which the choice alone is not e-differentially private.)", "quantifier": "for all datasets, privacy ids, public partitions, parameters, dependences of the pipeline on the chosen bound, backends and runners within their contract, distributions of sampling, libraries within their contract, and events", "why_tests_cant": "Statement about joint distributions of an adaptive sequence of mechanisms on all datasets.", "anchors": ["pipeline_dp/dp_engine.py:DPEngine.calculate_private_contribution_bounds", "pipeline_dp/private_contribution_bounds.py:PrivateL0Calculator", "pipeline_dp/dp_engine.py:DPEngine.aggregate", "pipeline_dp/budget_accounting.py:NaiveBudgetAccountant"]}
{"id": "C67", "title": "A pipeline with the PLD accountant is differentially private with its total budget", "statement": "Run any sequence of aggregate() calls that DPEngine accepts with a PLDBudgetAccountant(e, d) (public partitions; COUNT, PRIVACY_ID_COUNT, SUM and MEAN; Laplace or Gaussian noise), call compute_budgets() and evaluate. If compute_budgets() returns, the evaluation raises no exception and everything that is released is (e, d)-differentially private with respect to adding or removing one privacy id. compute_budgets() returns exactly if d is 0, nothing was requested, or dp_accounting reports an epsilon of at most e for some noise 2, 4, 8, ... (Defect: post_aggregation_thresholding is accepted with this accountant but the evaluation always fails, because thresholding mechanisms get neither epsilon nor delta.)", "quantifier": "for all datasets, privacy ids, calls and parameters outside the known defects, budgets, weights and announcements, backends and runners within their contract, distributions of sampling, accounting libraries within their contract, and events", "why_tests_cant": "Statement about joint distributions of all released numbers on all datasets; tests compare the computed noise of a few mechanisms with recorded numbers and do not run the engine with this accountant.", "anchors": ["pipeline_dp/budget_accounting.py:PLDBudgetAccountant", "pipeline_dp/dp_engine.py:DPEngine.aggregate", "pipeline_dp/dp_engine.py:DPEngine._check_budget_accountant_compatibility", "pipeline_dp/combiners.py", "pipeline_dp/dp_computations.py:create_additive_mechanism"]}
{"id": "C68", "title": "Released partitions can be used by later calls on the same accountant", "statement": "Let later calls of a pipeline use the partitions that earlier select_partitions() or aggregate() calls release, for example aggregate(public_partitions=engine.select_partitions(...)), in any number of rounds, with all calls on one NaiveBudgetAccountant(e, d). The graph and the budgets do not depend on which partitions are released, the driver and the evaluation raise no exception, and everything that is released in all rounds together is (e, d)-differentially private with respect to adding or removing one privacy id.", "quantifier": "for all datasets, privacy ids, numbers of rounds, ways to derive the calls of a round from the partitions released before, supported calls and parameters, budgets, weights and announcements, backends and runners within their contract, distributions of sampling, PyDP libraries within their contract, and events", "why_tests_cant": "Statement about the joint distribution of adaptively chosen releases on all datasets; the tests run single calls and look at single outcomes.", "anchors": ["pipeline_dp/dp_engine.py:DPEngine.select_partitions", "pipeline_dp/dp_engine.py:DPEngine.aggregate", "pipeline_dp/dp_engine.py:DPEngine._drop_partitions", "pipeline_dp/budget_accounting.py:NaiveBudgetAccountant"]}
{"id": "C69", "title": "The approximate distribution of the number of users is a distribution up to tiny tails", "statement": "For partitions with many users the utility analysis replaces the exact distribution of the number of kept users by compute_pmf_approximation of its mean, standard deviation and skewness. Whatever the probabilities with which users are kept, the listed counts lie between 0 and the number of users, the probabilities are not negative and sum to at most 1, so the predicted probability of keeping the partition is between 0 and 1. The probability listed for a count k is the mass between k - 1/2 and k + 1/2 (its distribution function clipped to [0, 1]) of a density with the mean, variance and third moment of the number of users. If every user is kept with probability 0 or 1 the result is exact. If the standard deviation is at least 1/3 and eight standard deviations on both sides of the mean fit between 0 and the number of users, at most 10^-12 of the mass is missing; otherwise mass can be missing at the number of users.", "quantifier": "for every list of probabilities of every length, every count, and every selection strategy (probability of keeping as a function of the count)", "why_tests_cant": "The refined normal approximation is not monotone for general skewness; that its differences are never negative for the moments of independent trials is a statement about all lists of probabilities, the tests compare a few of them numerically.", "anchors": ["analysis/poisson_binomial.py:compute_pmf_approximation", "analysis/per_partition_combiners.py:PartitionSelectionCalculator._compute_pmf", "analysis/per_partition_combiners.py:PartitionSelectionCalculator.compute_probability_to_keep"]}
{"id": "C70", "title": "Programs on private collections release only differentially private results", "statement": "A Beam or Spark program makes private collections of any raw collections with make_private, transforms them by any functions with map and flat_map, and applies Variance, Mean, Sum, Count, PrivacyIdCount and SelectPartitions to them. Everything that it releases with one budget accountant with total budget (epsilon, delta) is (epsilon, delta)-differentially private: removing all elements of one privacy id from all raw collections changes the probability of any event by at most the factor exp(epsilon) plus delta, whatever other accountants are used for other releases. In Beam this needs no assumption on the data, in Spark only that the data keeps the contribution bounds that the program declares to be already enforced. A program with valid parameters is accepted and its budget is computed, and every release evaluates its metric on exactly the elements derived from the raw elements, with their privacy ids.", "quantifier": "for every program of any number of releases, transformations and accountants, every data, every privacy id, every choice of the backend and of its random samples, every library that keeps the promises of PyDP, every event", "why_tests_cant": "The statement is about the distribution of all releases of all programs together, through transformations, contribution bounding and the division of the budget; tests check single transforms on small inputs.", "anchors": ["pipeline_dp/private_beam.py:PrivatePCollection", "pipeline_dp/private_beam.py:MakePrivate", "pipeline_dp/private_beam.py:Variance", "pipeline_dp/private_beam.py:Mean", "pipeline_dp/private_beam.py:Sum", "pipeline_dp/private_beam.py:Count", "pipeline_dp/private_beam.py:PrivacyIdCount", "pipeline_dp/private_beam.py:SelectPartitions", "pipeline_dp/private_beam.py:Map", "pipeline_dp/private_beam.py:FlatMap", "pipeline_dp/private_spark.py:PrivateRDD", "pipeline_dp/private_spark.py:make_private"]}
{"id": "C71", "title": "The privacy of groups of users, of changed data and of several accountants", "statement": "A pipeline whose accountant has the total budget (epsilon, delta) also protects groups: with and without all rows of k privacy ids, everything released is indistinguishable with epsilon k*epsilon and delta delta*(1 + exp(epsilon) + ... + exp((k-1)*epsilon)). If the rows of k privacy ids are not removed but changed in any way, the same holds with 2k in place of k; in particular replacing the data of one user costs at most twice the budget's epsilon. If several pipelines with different accountants are run on the same data, everything they release together is private with the sums of the total epsilons and of the total deltas of the accountants.", "quantifier": "for every pipeline of any number of aggregations and partition selections, every data, every group of privacy ids of any size, every change of its rows, every number of accountants, every choice of the backend and of its random samples, every library that keeps the promises of PyDP, every event", "why_tests_cant": "The statement is about the joint distribution of all releases on all pairs of datasets that differ in the rows of a group; tests run single aggregations on fixed data.", "anchors": ["pipeline_dp/dp_engine.py:DPEngine", "pipeline_dp/dp_engine.py:DPEngine.aggregate", "pipeline_dp/dp_engine.py:DPEngine.select_partitions", "pipeline_dp/budget_accounting.py:NaiveBudgetAccountant", "pipeline_dp/budget_accounting.py:BudgetAccountant.request_budget"]}
{"id": "C72", "title": "DataFrame queries are differentially private", "statement": "A query made with QueryBuilder (groupby with a column or a list of columns, then count, sum and mean) and run with run_query and a Budget (epsilon, delta) succeeds and is (epsilon, delta)-differentially private with respect to the privacy column: removing all rows whose privacy column has one value changes the probability of any event about the result by at most the factor exp(epsilon) plus delta. Nothing is assumed of the rows of the DataFrame. For every partition, what is released is computed from the rows that contribution bounding keeps, exactly as the builder's calls say, and no released number is left out of the statement. Several queries on the same DataFrame are together private with the sums of their epsilons and of their deltas. A query with a contribution bound of 0, with value caps in the wrong order, or with an impossible budget raises before the data is read.", "quantifier": "for every sequence of calls on the builder that gives a query, every budget, Laplace and Gaussian noise, public or private keys, every DataFrame, every value of the privacy column, every number of queries, every choice of the backend and of its random samples, every library that keeps the promises of PyDP, every event", "why_tests_cant": "The statement is about the distribution of results on all pairs of neighbouring DataFrames; tests mock the engine or run one query on a few rows.", "anchors": ["pipeline_dp/dataframes.py:QueryBuilder", "pipeline_dp/dataframes.py:Query.run_query", "pipeline_dp/dataframes.py:SparkConverter.dataframe_to_collection", "pipeline_dp/dataframes.py:Budget"]}
{"id": "C73", "title": "Pipelines that also use add_dp_noise are differentially private", "statement": "Take any number of aggregate(), select_partitions() and add_dp_noise() calls, in any order, on one NaiveBudgetAccountant with total budget (e, d), supported as in C62; add_dp_noise() gets a collection of (partition key, value) computed of the data, with distinct keys that do not depend on one privacy id, at most l0_sensitivity values of which change when all rows of one privacy id are removed, each by at most linf_sensitivity. Then no call of the driver and of the accountant raises an exception, all results can be evaluated, and everything that is released is (e, d)-differentially private with respect to adding or removing one privacy id, if PyDP keeps its promises. add_dp_noise() takes one share of the budget (of weight 1, whatever its budget_weight), and releases every key with its value plus noise for these sensitivities.", "quantifier": "for all pipelines, parameters, sensitivities, weights, announcements, datasets, privacy ids, ways to compute the collections within the stated sensitivities, backends and runners within their contract, distributions of sampling, libraries within their contract, and events", "why_tests_cant": "Statement about probability distributions on all pairs of neighbouring datasets and about how three kinds of calls share one accountant; the tests of add_dp_noise look at one call and the parameters of its mechanism.", "anchors": ["pipeline_dp/dp_engine.py:DPEngine.add_dp_noise", "pipeline_dp/dp_engine.py:DPEngine.aggregate", "pipeline_dp/dp_engine.py:DPEngine.select_partitions", "pipeline_dp/dp_computations.py:create_additive_mechanism", "pipeline_dp/dp_computations.py:Sensitivities", "pipeline_dp/budget_accounting.py:NaiveBudgetAccountant"]}
{"id": "C74", "title": "Pipelines with custom combiners are differentially private if the combiners are", "statement": "Take any number of aggregate(), select_partitions() and add_dp_noise() calls on one NaiveBudgetAccountant with total budget (e, d), some of the aggregate() calls with custom combiners, and no combiner object used twice. Suppose that each custom combiner merges associatively and commutatively, and that its compute_metrics is differentially private with the sum of whatever budgets it requested, when one privacy id adds lists of values within the contribution bounds of the call. Then no call of the driver and of the accountant raises an exception, all results can be evaluated, and everything that is released is (e, d)-differentially private with respect to adding or removing one privacy id. Each combiner gets the parameters of its call and exactly the budgets that it requested, shared with no other mechanism; element i of the tuple released for a partition is compute_metrics of combiner i on the merge of the accumulators of the bounded values of that partition. The example combiner of the repository meets the requirement. If one object is used in two calls, both calls compute with the budget of the last one, and the pipeline may exceed its total budget.", "quantifier": "for all pipelines, parameters, classes of custom combiners within their contract, requested mechanisms and weights, announcements, datasets, privacy ids, backends and runners within their contract, distributions of sampling, libraries within their contract, and events", "why_tests_cant": "The tests of custom combiners use one sum combiner and check that its methods are called; privacy for every combiner which keeps a contract, on all pairs of neighbouring datasets, and the sharing of budgets between combiners and calls are not decided by any number of runs.", "anchors": ["pipeline_dp/combiners.py:CustomCombiner", "pipeline_dp/combiners.py:create_compound_combiner_with_custom_combiners", "pipeline_dp/combiners.py:CompoundCombiner", "pipeline_dp/dp_engine.py:DPEngine.aggregate", "pipeline_dp/budget_accounting.py:NaiveBudgetAccountant", "examples/experimental/custom_combiners.py:CountCombiner"]}
{"id": "C75", "title": "Pipelines with percentiles are differentially private if the quantile trees are", "statement": "Take any number of aggregate(), select_partitions() and add_dp_noise() calls on one NaiveBudgetAccountant with total budget (e, d), where aggregate() calls may ask for PERCENTILE next to COUNT, PRIVACY_ID_COUNT, SUM, MEAN and VARIANCE, or use custom combiners as in C74. Suppose that PyDP's quantile tree keeps its promise: if one user adds at most linf values to each tree and values to at most l0 trees, then the quantiles computed from all trees together are differentially private with the budget given to it. Then, for value bounds min_value < max_value, everything that is released, percentiles included, is (e, d)-differentially private with respect to adding or removing one privacy id. The pipeline raises no exception if the percentiles of each call have distinct names, and a call where two have the same name is rejected. All percentiles of a call share one budget request with the noise kind and the weight of the call. The percentiles of a partition are computed by one tree with the bounds of values, the contribution bounds and the noise kind of the call, from exactly the bounded values of the partition, and are released with the names percentile_X in the order of the metrics. Pipelines without percentiles behave as in C74.", "quantifier": "for all pipelines, parameters with min_value < max_value, percentiles, budgets, announcements, datasets, privacy ids, backends and runners within their contract, distributions of sampling, tree libraries and other libraries within their contract, custom combiners within their contract, and events", "why_tests_cant": "Tests compute percentiles of a few values with a huge budget and compare them with exact ones; that the released percentiles are private on all pairs of neighbouring datasets needs the contribution bounds of all values of a user in all trees and the share of the budget in every pipeline, which no number of runs decides.", "anchors": ["pipeline_dp/combiners.py:QuantileCombiner", "pipeline_dp/combiners.py:CompoundCombiner", "pipeline_dp/combiners.py:create_compound_combiner", "pipeline_dp/dp_engine.py:DPEngine.aggregate", "pipeline_dp/budget_accounting.py:NaiveBudgetAccountant"]}
{"id": "C76", "title": "Tuning recommends the first configuration with the smallest predicted error", "statement": "tune() with supported options analyses between one and number_of_parameter_candidates configurations. Their bounds are the candidates found in the histograms for the parameters to be tuned and the given parameters for the others. Each has the given noise, or, if the noise is tuned, the one with the smaller deviation for its own bound on partitions, and with private partitions the better strategy of partition selection. Every analysed partition is described under every configuration with the whole budget. If at least one partition is analysed, the result has exactly one report per configuration, in the order of the configurations, which sums up all partitions, and index_best is the first configuration whose root mean square error, averaged over the partitions with the probabilities to keep them as weights, is smallest. The error is that of SUM if SUM is computed, else of COUNT, else of PRIVACY_ID_COUNT, in whatever order the metrics are given. Without metrics (tuning of partition selection) index_best is -1. Nothing to tune, an invalid budget, no metrics with public partitions, an unsupported first metric, tuning of min_sum_per_partition and other functions to minimise are rejected before anything is computed. Gaps which are proved: if no partition is analysed (no data, or none sampled), tuning fails with an AssertionError; a configuration under which all partitions are dropped has the predicted error 0; only the first metric is checked.", "quantifier": "for all supported options, histograms, datasets, public or private partitions, backends within their contract, orders of merging, samplings of partitions, functions of PyDP for the deviations, thresholds and probabilities, and floating point powers of the candidates", "why_tests_cant": "The tests compare the outcome for a few histograms and datasets, mostly with the analysis or the candidates mocked; that the recommended index refers to the configuration whose error on all partitions is smallest needs the candidates, strategies, analysis, averages and reports to agree on the numbering of the configurations for every number of candidates, columns and partitions.", "anchors": ["analysis/parameter_tuning.py:tune", "analysis/parameter_tuning.py:_convert_utility_analysis_to_tune_result", "analysis/parameter_tuning.py:_check_tune_args", "analysis/parameter_tuning.py:_add_dp_strategy_to_multi_parameter_configuration", "analysis/parameter_tuning.py:_find_candidate_parameters", "analysis/parameter_tuning.py:TuneOptions", "analysis/parameter_tuning.py:ParametersToTune", "analysis/utility_analysis.py:perform_utility_analysis"]}
{"id": "C77", "title": "On Spark, bounding holds for every placement of the rows, but privacy depends on the placement", "statement": "On Spark, sample_fixed_per_key and combine_accumulators_per_key reduce the values of a key pairwise, first inside the blocks in which the rows are placed and then over the blocks. Whatever the placement and the random choices, a sample of a key with n >= 1 contains at most n of its values, all of them if there are at most n, and no value of another key or twice; every accumulator is merged exactly once. If every block holds one row, or all rows are in one block, the sample of a user depends only on the values of this user, and pipelines of supported aggregations are e-differentially private. Gap which is proved: if rows are placed in blocks of c >= 2 consecutive rows, one additional row of one user changes the samples of all other users. Then one SUM with Laplace noise and bounds 1 on partitions and contributions is not (e', d')-differentially private for any e' and any d' < 1, whatever the budget of the accountant.", "quantifier": "for all placements in blocks of c consecutive rows, random choices, collections, sample sizes and merge functions; the privacy statement for all supported pipelines, datasets, users and distributions of the choices; the gap for all c >= 2, budgets, e', d' < 1 and all fair and independent choices", "why_tests_cant": "The tests of the Spark backend sample a few literal rows and check the number of values kept. That the probability to keep a value depends on rows of other users shows only in the joint distribution over many users and two datasets, and differential privacy is a statement about all events and all neighbouring datasets.", "anchors": ["pipeline_dp/pipeline_backend.py:SparkRDDBackend.sample_fixed_per_key", "pipeline_dp/pipeline_backend.py:SparkRDDBackend.combine_accumulators_per_key", "pipeline_dp/pipeline_backend.py:SparkRDDBackend.reduce_per_key", "pipeline_dp/contribution_bounders.py:SamplingCrossAndPerPartitionContributionBounder", "pipeline_dp/dp_engine.py:DPEngine.aggregate"]}
{"id": "C78", "title": "Reductions per key on Beam and Spark use every value once", "statement": "On Beam, reduce_per_key, sum_per_key and combine_accumulators_per_key give one entry per key, whatever groups of values and earlier results the runner passes to the given function: reduce_per_key merges every value of the key exactly once, sum_per_key gives the sum, and combine_accumulators_per_key merges every accumulator exactly once if falsy accumulators are neutral for merging (in particular if there are none, as for the accumulators of the engine and of the utility analysis). On Spark count_per_element gives the numbers of occurrences, sum_per_key the sums and reduce_per_key and combine_accumulators_per_key merge every value exactly once for every placement of the rows. Hence dataset histograms and utility reports on both backends meet the properties stated for them. Gap which is proved: on Beam a falsy accumulator which is not neutral (for example 0 when the smallest value is kept) can be lost.", "quantifier": "for all collections, keys, merge functions, nestings of calls, placements in blocks of c consecutive rows and truth values of accumulators", "why_tests_cant": "The tests run a local runner, which reduces a few values in one order; how a distributed runner groups the values of a key, and passes results of earlier calls to the same function, cannot be chosen in a test and has unboundedly many outcomes.", "anchors": ["pipeline_dp/pipeline_backend.py:BeamBackend.combine_accumulators_per_key", "pipeline_dp/pipeline_backend.py:BeamBackend.reduce_per_key", "pipeline_dp/pipeline_backend.py:BeamBackend.sum_per_key", "pipeline_dp/pipeline_backend.py:SparkRDDBackend.count_per_element", "pipeline_dp/pipeline_backend.py:SparkRDDBackend.sum_per_key", "pipeline_dp/pipeline_backend.py:SparkRDDBackend.reduce_per_key", "pipeline_dp/pipeline_backend.py:SparkRDDBackend.combine_accumulators_per_key"]}
{"id": "C79", "title": "VECTOR_SUM is private exactly when its noise covers the norm ball", "statement": "An aggregate call with the metric VECTOR_SUM over private partitions and the norm Linf, L1 or L2 keeps the promise of its budget if 2 * vector_max_norm is at most max_contributions_per_partition, or if the norm is Linf and all arrays have coordinates of at most 1 in absolute value, or if the noise is Laplace and the spread of the norm ball (2 * max_norm * vector_size for Linf, 2 * max_norm for L1, 2 * max_norm * sqrt(vector_size) for L2) is at most max_contributions_per_partition * vector_size. A pipeline of any such calls and any supported aggregate, select_partitions and add_dp_noise calls on one naive accountant with total budget (eps, delta) is (eps, delta)-differentially private. In general, with Laplace noise the loss is at most eps * spread / (max_contributions_per_partition * vector_size); this bound is attained by one user with one array per partition, so for arbitrary arrays the condition on the spread is also necessary. Gap which is proved: for every eps' and every delta' < 1, every large enough vector_max_norm breaks (eps', delta')-differential privacy, because the noise does not depend on the norm.", "quantifier": "for all parameters (bounds, vector sizes, norms, noise kinds, weights), datasets, users, total budgets, numbers and orders of calls, and random choices of the backend", "why_tests_cant": "Privacy is a statement on the distributions of the released vectors over all pairs of neighbouring datasets; a test sees single noisy vectors of chosen arrays, and cannot tell the calibrated noise from noise which is too small by a constant factor.", "anchors": ["pipeline_dp/combiners.py:VectorSumCombiner", "pipeline_dp/combiners.py:CombinerParams.additive_vector_noise_params", "pipeline_dp/dp_computations.py:add_noise_vector", "pipeline_dp/dp_computations.py:_clip_vector", "pipeline_dp/dp_computations.py:_add_random_noise", "pipeline_dp/dp_engine.py:DPEngine.aggregate"]}
{"id": "C80", "title": "The promised epsilon is spent exactly, except for the known defects", "statement": "Consider an aggregate call with public partitions, Laplace noise and metrics among COUNT, PRIVACY_ID_COUNT, SUM, MEAN and VARIANCE with which nothing raises, on a naive accountant with total budget eps. One user with as many partitions and rows as allowed and values at the farther bound causes a loss of at least eps * (1 + excess / parts): if the results with and without this user are (e', d')-indistinguishable then d' is at least a positive constant times 1 - exp(e' - that loss). parts is the number of mechanisms of the call. excess is 0, except for VARIANCE, where it is a third of (hi - lo)^2 / (2 L) - 1 with L the length of the interval of the squares as used by the code, and for SUM with bounds per partition and contribution_bounds_already_enforced, where it is max_contributions_per_partition - 1. Hence without VARIANCE and without such a SUM, e' = eps is the smallest epsilon for which the result is private: the noise is not larger than the promise needs. With VARIANCE whose squares are not covered, or with such a SUM and more than one row per partition, the promised epsilon does not hold, not even with a small positive delta. The call is eps-differentially private for all datasets and users if and only if neither of these two defects applies (SUM with bounds per partition, enforced bounds and one row per partition is left out of this equivalence). Finally, public_partitions_already_filtered without public partitions is accepted and releases every partition of the data: if a partition has rows of a single user only, no (e', d') with d' < 1 holds.", "quantifier": "for all parameters (bounds, metrics, weights, noise budgets), sets of public partitions, users, comparison epsilons and deltas; the last part for all datasets within the bounds, partitions and noise kinds", "why_tests_cant": "That noise is exactly large enough, or too small by a factor, is a statement about ratios of probabilities of events of the joint distribution of all released numbers; sampling cannot establish it, least of all for all parameters.", "anchors": ["pipeline_dp/dp_engine.py:DPEngine.aggregate", "pipeline_dp/dp_engine.py:DPEngine._aggregate", "pipeline_dp/combiners.py:create_compound_combiner", "pipeline_dp/combiners.py:SumCombiner", "pipeline_dp/combiners.py:VarianceCombiner", "pipeline_dp/dp_computations.py:compute_dp_var", "pipeline_dp/dp_computations.py:compute_sensitivities_for_sum", "pipeline_dp/aggregate_params.py:AggregateParams"]}
{"id": "C81", "title": "Public partitions given as a one-shot iterator lose rows, partitions and privacy on the local backend", "statement": "Let aggregate run on LocalBackend with public_partitions given as an iterator that can be read only once (for instance the lazy result of select_partitions, without list()), and public_partitions_already_filtered=False. Then the result is the one of aggregate on a part of the rows that has at most one row in each public partition, one per listing, and none elsewhere. If every public partition is listed once and no privacy id exceeds its bounds, then the result has exactly the public partitions if and only if the partitions of the rows, in the order of the input, are the beginning of the listing, or the listing is their beginning. After the first row whose partition is not public, no further row is used and no empty public partition is added: the result does not depend on later rows and has only partitions of earlier rows. So the call is not differentially private: if all rows are of one user and the first is not in a public partition, then nothing is released, while without this user every public partition is released; no (e', d') with d' < 1 holds, whatever the budget is. With public_partitions_already_filtered=True the iterator is read once only, and the result is the one for a list.", "quantifier": "for all data, orders of rows, listings of public partitions, parameters accepted by aggregate, combiners, accountants' budgets, samples of the backend and comparison (e', d')", "why_tests_cant": "Whether rows and partitions survive depends on how the order of the rows interleaves with the order of the listing; a test fixes one order, usually with lists, where nothing is lost. The failure of privacy is a statement about the distribution of the released partitions.", "anchors": ["pipeline_dp/dp_engine.py:DPEngine.aggregate", "pipeline_dp/dp_engine.py:DPEngine._drop_partitions", "pipeline_dp/dp_engine.py:DPEngine._add_empty_public_partitions", "pipeline_dp/pipeline_backend.py:LocalBackend.filter_by_key", "pipeline_dp/pipeline_backend.py:LocalBackend.flatten", "pipeline_dp/pipeline_backend.py:LocalBackend.combine_accumulators_per_key"]}
{"id": "C82", "title": "Serialising results and combiners changes nothing but drops the cached mechanism", "statement": "Results: a MetricsTuple that is pickled in one process and read in another arrives with the same field names and values, so each attribute has the same value, whatever results both processes have made or read before; reading does not fail. Within a process two results have the same type if and only if they have the same names, however they came about, and a pickled and read copy equals the original including its type. Combiners: a combiner can be pickled at any time, also after it has used its mechanism. In any history of compute_budgets, uses and copies (also copies of copies), every mechanism that the combiner or a copy returns is the one made from the budget of the first compute_budgets. A copy can use a mechanism exactly if the pickled object could at the moment of pickling: a copy made before compute_budgets fails for ever, even after compute_budgets, while a copy made after it always works. The original returns its mechanism exactly after compute_budgets, also if it was used too early before.", "quantifier": "for all histories of both processes (any number of results, types, copies and copies of copies, in any order), all values, names accepted by namedtuple, budgets and mechanism factories", "why_tests_cant": "The cache of types and the cached mechanisms are hidden state; a test pickles one object once in one process, while the claim is about all interleavings of creation, use, pickling and budget computation.", "anchors": ["pipeline_dp/combiners.py:_get_or_create_named_tuple", "pipeline_dp/combiners.py:_create_named_tuple_instance", "pipeline_dp/combiners.py:MechanismContainerMixin.__getstate__", "pipeline_dp/combiners.py:MechanismContainerMixin.get_mechanism", "pipeline_dp/budget_accounting.py:MechanismSpec", "pipeline_dp/budget_accounting.py:BudgetAccountant._finalize"]}
{"id": "C83", "title": "Which accepted parameters can be computed", "statement": "AggregateParams and DPEngine.aggregate check parameters before a pipeline is built; mechanisms are created when results are computed. For accepted parameters with metrics among COUNT, PRIVACY_ID_COUNT, SUM, MEAN, VARIANCE and PERCENTILE, once budgets are computed, the result is computed without an exception for all data if (1) SUM, unless computed together with MEAN or VARIANCE, has bounds other than [0, 0], and no max_contributions together with bounds of the sum per partition; (2) MEAN, unless computed together with VARIANCE, has min_value different from max_value; and (3) max_contributions is used neither with private partition selection nor with post-aggregation thresholding. In all other cases no partition is ever released, whatever the data and the budget: the computation fails as soon as there is a partition, with a non-empty list of public partitions for all data, even empty data.", "quantifier": "for all arguments accepted by AggregateParams and aggregate, with or without public partitions, all data, budgets, noise kinds, earlier requests on the accountant, and random choices of the backend", "why_tests_cant": "The claim is about all accepted combinations of about fifteen parameters and all datasets, and that the list of failing combinations is complete; the failures occur on workers, long after validation, and tests of the combiners set parameters which work.", "anchors": ["pipeline_dp/aggregate_params.py: AggregateParams.__post_init__", "pipeline_dp/dp_engine.py: DPEngine.aggregate, DPEngine._check_aggregate_params, DPEngine._select_private_partitions_internal", "pipeline_dp/dp_computations.py: Sensitivities.__post_init__, compute_sensitivities_for_sum, compute_sensitivities_for_normalized_sum, create_thresholding_mechanism", "pipeline_dp/combiners.py: create_compound_combiner, CompoundCombiner.compute_metrics"]}
{"id": "C84", "title": "Thresholding of public partitions is private", "statement": "A program of aggregate() and select_partitions() calls on one naive accountant with total budget (epsilon, delta), in which post_aggregation_thresholding is used with public partitions, with private partitions or not at all, is (epsilon, delta)-differentially private with respect to one privacy id: the released partitions of all calls (also which public partitions were dropped by the thresholding), their thresholded counts and their noisy numbers. This holds if PyDP keeps its promises, where the promise of the thresholding also covers known partitions without privacy ids. The latter follows from the former if PyDP never releases a partition without privacy ids.", "quantifier": "for all programs of supported calls, parameters, public partitions, datasets, users, backends, random choices of contribution bounding, and sets of observed results", "why_tests_cant": "Privacy compares distributions of outputs for all pairs of neighbouring datasets; no finite set of runs settles it.", "anchors": ["pipeline_dp/dp_engine.py:DPEngine._aggregate", "pipeline_dp/dp_engine.py:DPEngine._drop_partitions_under_threshold", "pipeline_dp/combiners.py:PostAggregationThresholdingCombiner", "pipeline_dp/dp_computations.py:create_thresholding_mechanism"]}
{"id": "C85", "title": "Comparing histograms", "statement": "`==` of two dataset histograms is an equivalence relation. Histograms which compare equal have the same total count and sum, the same quantiles for all arguments and the same ratios of dropped data. For histograms of counts they agree in everything but the smallest values of the bins, and for counts below 1000 they compare equal exactly if the counts are the same up to order. The smallest value of a bin is never compared: histograms of different data with different smallest values can compare equal.", "quantifier": "for all histograms, all lists of counts, all arguments of quantiles, all backends", "why_tests_cant": "The claim is about all pairs of histograms; tests that compare histograms with == rely on it and cannot see what == does not compare.", "anchors": ["pipeline_dp/dataset_histograms/histograms.py:FrequencyBin.__eq__", "pipeline_dp/dataset_histograms/histograms.py:Histogram", "pipeline_dp/dataset_histograms/histograms.py:compute_ratio_dropped"]}
{"id": "C86", "title": "Noise on aggregated data of selected partitions", "statement": "A program in rounds of aggregate(), select_partitions() and add_dp_noise() calls on one naive accountant with total budget (epsilon, delta), in which later calls use the partitions released before, in particular add_dp_noise() on values computed for the partitions that select_partitions() has released, is (epsilon, delta)-differentially private with respect to one privacy id, all that is released in all rounds together, if the collections have the stated sensitivities for all partitions that may have been released. If instead the partitions of the collection are taken from the data without selection, then some partition is released with probability 1 for one dataset and 0 for another, so the program is not (epsilon, delta)-differentially private for any delta below 1, whatever the noise.", "quantifier": "for all programs of supported calls with any number of rounds, ways to compute later collections from released partitions, parameters, datasets, users, backends, random choices, and sets of observed results", "why_tests_cant": "Privacy compares distributions of outputs for all pairs of neighbouring datasets, over all outcomes of the earlier rounds; no finite set of runs settles it.", "anchors": ["pipeline_dp/dp_engine.py:DPEngine.add_dp_noise", "pipeline_dp/dp_engine.py:DPEngine.select_partitions", "pipeline_dp/dp_engine.py:DPEngine.aggregate", "pipeline_dp/budget_accounting.py:NaiveBudgetAccountant"]}
{"id": "C87", "title": "Parameters can be read off the report", "statement": "The text of the parameters at the beginning of an explain-computation report, which is also str(AggregateParams), determines the metrics, the noise kind, the budget weight, every contribution bound, the value and sum bounds, the vector parameters, whether bounds are already enforced and whether partitions are public: two parameter objects without custom combiners have equal texts exactly if they agree in all of these. The texts for aggregate(), select_partitions() and add_dp_noise() are always different. The text of SelectPartitionsParams shows only weight, number of partitions and public/private, and that of AddDPNoiseParams only noise kind, weight and public/private: the selection strategy, the pre-threshold and the sensitivities are not shown.", "quantifier": "for all parameter objects without custom combiners, all lists of metrics, and all ways to print numbers that are injective and use neither commas nor line ends", "why_tests_cant": "That no two different settings print the same text is a statement about all pairs of parameter objects; a test compares a few strings.", "anchors": ["pipeline_dp/aggregate_params.py:parameters_to_readable_string", "pipeline_dp/aggregate_params.py:AggregateParams.metrics_str", "pipeline_dp/aggregate_params.py:Metric", "pipeline_dp/report_generator.py:ReportGenerator"]}
{"id": "C88", "title": "When a DataFrame query returns a result", "statement": "A DataFrame query run with run_query returns a DataFrame exactly if the names of the group-by columns and of the output columns together are acceptable and all different, and every released key can be unpacked into the group-by columns: any key for a column given by name, and for a list of columns a key with at least as many parts. The rows are in the order of the released keys, each with the first parts of its key followed by the metrics in the order of the columns. It raises ValueError for names, whatever data and keys are, and otherwise TypeError. Different keys of the right shape have different cells, but public keys with too many parts are cut silently and can become equal.", "quantifier": "for all queries with different aggregations, names of columns, DataFrames, public keys of any shape, and results of the engine with one value per metric in any order", "why_tests_cant": "The names, the keys and their shapes are arbitrary; tests use a few well-formed keys.", "anchors": ["pipeline_dp/dataframes.py:Query.run_query", "pipeline_dp/dataframes.py:QueryBuilder.groupby"]}
{"id": "C89", "title": "Pipelines chosen after looking at earlier results stay within the sum of their budgets", "statement": "A user runs pipelines of aggregate, select_partitions and add_dp_noise calls one after the other on the same data, each with its own NaiveBudgetAccountant, and decides from everything released so far, including all noisy numbers, which pipeline to run next: which calls, parameters, partitions and budgets. If, whatever is decided, the budgets of the accountants add up to at most (e, d), then all results together are (e, d)-differentially private with respect to one privacy id.", "quantifier": "for all sessions of any length, any measurable way of deciding among countably many pipelines after each result, all supported calls, parameters, datasets, privacy ids, backends and random choices of contribution bounding, which may depend on the decisions", "why_tests_cant": "The property is about the joint distribution of adaptively chosen releases on neighbouring datasets, over all possible decisions.", "anchors": ["pipeline_dp/budget_accounting.py:NaiveBudgetAccountant", "pipeline_dp/dp_engine.py:DPEngine.aggregate", "pipeline_dp/dp_engine.py:DPEngine.select_partitions", "pipeline_dp/dp_engine.py:DPEngine.add_dp_noise"]}
{"id": "C90", "title": "The report states the noise and the budgets that are used", "statement": "After compute_budgets() the explain-computation report of every aggregate and select_partitions call of a pipeline can be generated. It states, for COUNT, PRIVACY_ID_COUNT, SUM and MEAN, the mechanism, parameter, sensitivity and budget of the noise that every partition gets, for VARIANCE the budget of which each of its numbers uses a third, and the strategy, budget and pre-threshold of partition selection or the threshold of thresholding. The epsilons shown in the report of a call add up to its share of the total epsilon, those of all reports to the total epsilon, and all deltas to the total delta or to 0 if nothing needs a delta. Before compute_budgets() no report of a call is generated. Exception: the report of VECTOR_SUM states nothing about its noise or budget.", "quantifier": "for all pipelines of supported calls, parameters, total budgets, weights, datasets and partitions", "why_tests_cant": "Tests compare the text for a few parameters; that the text and the actual noise agree, and that the shown budgets add up, concerns all parameters and pipelines.", "anchors": ["pipeline_dp/combiners.py:CompoundCombiner.explain_computation", "pipeline_dp/combiners.py:CountCombiner.explain_computation", "pipeline_dp/combiners.py:MeanCombiner.explain_computation", "pipeline_dp/combiners.py:VarianceCombiner.explain_computation", "pipeline_dp/combiners.py:VectorSumCombiner.explain_computation", "pipeline_dp/combiners.py:PostAggregationThresholdingCombiner.explain_computation", "pipeline_dp/dp_computations.py:LaplaceMechanism.describe", "pipeline_dp/dp_computations.py:GaussianMechanism.describe", "pipeline_dp/dp_engine.py:DPEngine._select_private_partitions_internal", "pipeline_dp/report_generator.py:ReportGenerator.report"]}
{"id": "C91", "title": "Released results are unbiased and their errors have the documented size", "statement": "In a pipeline of aggregate and select_partitions calls whose data is within the bounds, every number that is released with noise is the documented exact number on average. With Laplace noise the probability of an error of t or more is exp(-t * epsilon / (sensitivity * uses)), where epsilon is the share of the budget from the weights; with Gaussian noise the variance is the square of the standard deviation and the probability at most 2 exp(-t^2 / (2 sigma^2)). For a single call with public partitions and total epsilon e this reads: COUNT has error t or more with probability exp(-t e / (l0 linf)), PRIVACY_ID_COUNT with exp(-t e / l0), SUM with exp(-t e / (l0 linf max(|min_value|, |max_value|))), and MEAN in a partition of n rows has an error above (b + a (max_value - min_value)/2) / (n - a) with probability at most exp(-a e / (2 l0 linf)) + exp(-b e / (l0 linf (max_value - min_value))), for all a <= n - 1 and b. A similar bound holds for VARIANCE, whose three numbers get a third of e each. All public partitions are released, and with probability (1 - exp(-t e / (l0 linf)))^n, n being the number of public partitions, all counts are at the same time wrong by less than t, so with probability at least 1 - beta by less than l0 linf / e * log(n / beta); likewise for PRIVACY_ID_COUNT and SUM.", "quantifier": "for all pipelines of supported calls, parameters, total budgets, weights, backends, random choices, datasets within the bounds, partitions and error sizes", "why_tests_cant": "Tests check sample means and deviations of a few noisy results with a tolerance; the distribution of errors for all parameters and all data is beyond sampling.", "anchors": ["pipeline_dp/dp_engine.py:DPEngine.aggregate", "pipeline_dp/combiners.py:CountCombiner.compute_metrics", "pipeline_dp/combiners.py:PrivacyIdCountCombiner.compute_metrics", "pipeline_dp/combiners.py:SumCombiner.compute_metrics", "pipeline_dp/combiners.py:MeanCombiner.compute_metrics", "pipeline_dp/dp_computations.py:MeanMechanism.compute_mean", "pipeline_dp/dp_computations.py:LaplaceMechanism.add_noise", "pipeline_dp/dp_computations.py:GaussianMechanism.add_noise", "pipeline_dp/budget_accounting.py:NaiveBudgetAccountant.compute_budgets", "pipeline_dp/dp_computations.py:compute_dp_var"]}
{"id": "C92", "title": "Selection of partitions does not bias the numbers that are seen", "statement": "In a pipeline of aggregate and select_partitions calls whose data is within the bounds, a user sees only the numbers of partitions that are released. Whatever is known of which partitions are released and of their thresholded privacy id counts, the other noisy numbers seen of the released partitions are independent and have the distributions of C91. So the average of such a number over the runs in which its partition is released is the documented exact number, and in these runs an error of t or more has probability exp(-t * epsilon / (sensitivity * uses)) with Laplace noise and at most 2 exp(-t^2 / (2 sigma^2)) with Gaussian noise, for public partitions, private partition selection and post-aggregation thresholding. (This does not hold for the thresholded PRIVACY_ID_COUNT itself, which is shown only if it is large.)", "quantifier": "for all pipelines of supported calls, parameters, total budgets, weights, backends, random choices of the contribution bounding, datasets within the bounds, sets of partitions and numbers, events on the decisions, and error sizes", "why_tests_cant": "A bias by selection shows only in the distribution conditional on a release, for partitions that are released rarely; tests look at a few runs, mostly of partitions that are always kept.", "anchors": ["pipeline_dp/dp_engine.py:DPEngine.aggregate", "pipeline_dp/dp_engine.py:DPEngine._select_private_partitions_internal", "pipeline_dp/combiners.py:PostAggregationThresholdingCombiner.compute_metrics", "pipeline_dp/combiners.py:CompoundCombiner.compute_metrics", "pipeline_dp/combiners.py:SumCombiner.compute_metrics"]}
{"id": "C93", "title": "Results of add_dp_noise are accurate, and how accurate they are", "statement": "A pipeline of n calls of add_dp_noise (Laplace or Gaussian noise, positive sensitivities and weights) on a NaiveBudgetAccountant with total budget (epsilon, delta) raises no exception, and each call returns every key of its collection, in order and without selection, with one number. The number is right on average. With Laplace noise its error is t or more with probability exp(-t * epsilon / (n * l0_sensitivity * linf_sensitivity)). With Gaussian noise it has the standard deviation of PyDP for (epsilon / n, delta / number of Gaussian calls) and the L2 sensitivity sqrt(l0_sensitivity) * linf_sensitivity, and its error is t or more with probability at most 2 exp(-t^2 / (2 sigma^2)). The accuracy does not depend on budget_weight of the calls.", "quantifier": "for all numbers of calls, parameters, collections, datasets, total budgets, announced numbers or weights of aggregations that fit, and error sizes", "why_tests_cant": "The accuracy is a statement on the distribution of the output for every pipeline; tests compare noise parameters for a few calls or look at a few noisy samples.", "anchors": ["pipeline_dp/dp_engine.py:DPEngine.add_dp_noise", "pipeline_dp/aggregate_params.py:AddDPNoiseParams", "pipeline_dp/budget_accounting.py:NaiveBudgetAccountant.compute_budgets", "pipeline_dp/dp_computations.py:create_additive_mechanism"]}
{"id": "C94", "title": "Released vector sums are accurate if their norm is within vector_max_norm, and clipped otherwise", "statement": "An aggregate with VECTOR_SUM over private partitions, with noise kind Laplace or Gaussian and norm Linf, L1 or L2, on data within the contribution bounds, considers every partition of the data exactly once and has one vector for it. The coordinates have independent noise. If the norm of the exact sum of the arrays of all rows of the partition is at most vector_max_norm, each coordinate is its exact sum on average; otherwise it is the coordinate of the clipped sum on average (each coordinate cut to +-vector_max_norm for Linf, all scaled down by one factor for L1 and L2), so that the result is biased however many users there are. For the budget (epsilon, delta) of the metric and n = vector_size, the error of a coordinate is t or more with probability exp(-t * epsilon / (n * max_partitions_contributed * max_contributions_per_partition)) with Laplace noise, and at most 2 exp(-t^2 / (2 sigma^2)) with Gaussian noise, sigma being that of PyDP for (epsilon / n, delta / n). Alone in a pipeline with total budget (e, d) and weight w, the call succeeds and the metric has epsilon = e * w / (w + 1).", "quantifier": "for all parameters, vector sizes, norms, budgets, weights, backends, random choices of the contribution bounding, datasets within the bounds, partitions, coordinates and error sizes", "why_tests_cant": "Accuracy and bias are statements on the distribution of the output for every dataset; tests compare a noisy sum with an expected one for a few arrays, mostly with a norm bound that is not reached.", "anchors": ["pipeline_dp/combiners.py:VectorSumCombiner", "pipeline_dp/dp_computations.py:add_noise_vector", "pipeline_dp/dp_computations.py:_clip_vector", "pipeline_dp/dp_engine.py:DPEngine.aggregate", "pipeline_dp/combiners.py:CombinerParams.additive_vector_noise_params"]}
{"id": "C95", "title": "Annotators see every call with its budget and cannot disturb it", "statement": "With BeamBackend, the collection returned by aggregate(), select_partitions() or add_dp_noise() is passed through all annotators registered with register_annotator() before the call, in the order of registration and exactly once each; annotators registered later have no part in it. All of them get the parameters of the call and the same budget: None if the accountant was created without restrictions, total/n if it was created with num_aggregations=n, and the share of the weight of the call if it was created with aggregation_weights. If compute_budgets() accepts the calls, the budgets passed to the annotators, one per call, add up to the total epsilon and delta. The stage names annotators get differ from each other and from the names of all other stages of the backend, also of those the annotators add. Annotators that return the elements they got change no result, and no annotator changes what the accountant hands out or the exceptions it raises. On every other backend annotators are silently ignored.", "quantifier": "For all sequences of registrations, pipeline stages and engine calls, all annotators, all accountants, all stage names and suffixes.", "why_tests_cant": "Tests register one or two annotators around one call and compare the arguments of a mock; uniqueness of names, order and the sum of the budgets are statements about arbitrary interleavings of registrations, stages and calls.", "anchors": ["pipeline_dp/pipeline_backend.py: PipelineBackend.annotate, BeamBackend.annotate, Annotator, register_annotator, UniqueLabelsGenerator", "pipeline_dp/dp_engine.py: DPEngine._annotate, DPEngine.aggregate, DPEngine.select_partitions, DPEngine.add_dp_noise", "pipeline_dp/budget_accounting.py: BudgetAccountant._compute_budget_for_aggregation"]}
{"id": "C96", "title": "Monte-Carlo quantiles of Laplace plus Gaussian noise converge to the true quantiles", "statement": "compute_sum_laplace_gaussian_quantiles(laplace_b, gaussian_sigma, quantiles, num_samples) returns one number per quantile; whatever the random generators return, each number lies between the smallest and the largest sample, larger quantiles give larger or equal numbers, and a quantile that falls on an order statistic gives that order statistic (0 the least sample, 1 the largest). Quantiles out of [0, 1] and negative scales raise ValueError. Let F be the distribution function of the sum of independent Laplace noise of scale laplace_b and normal noise of standard deviation gaussian_sigma. For all x and y with F(x) < q < F(y) the number returned for q is below x or above y with probability at most (n/4)/(n(q-F(x))-1)^2 + (n/4)/(n(F(y)-q)-1)^2, where n is num_samples and n(q-F(x)), n(F(y)-q) > 1. For positive scales and 0 < q < 1 there is exactly one t with F(t) = q, and the number returned is within any distance of t with probability tending to 1 as num_samples grows; if more and more samples of one stream are used it converges to t almost surely.", "quantifier": "For all scales, all lists of quantiles, all numbers of samples, all outputs of the generators, and all probability spaces on which the samples are independent with the stated distributions.", "why_tests_cant": "A test draws one set of samples and compares with a tolerance; it can neither bound the probability of an error for every number of samples nor show convergence.", "anchors": ["analysis/probability_computations.py: compute_sum_laplace_gaussian_quantiles"]}
{"id": "C97", "title": "VECTOR_SUM writes into the arrays of the caller", "statement": "On LocalBackend, aggregate() with VECTOR_SUM gives every partition the sum of the values in it that contribution bounding keeps, if no array object occurs twice among the values. A value whose size is not vector_size raises TypeError. Values that are lists or tuples are never changed. Of the numpy arrays that the value extractor returns only those are overwritten that come first among the values of a user in a partition: they hold the sum of all values of that user there afterwards, also if cross-partition bounding drops them. So a second aggregation of the same data is wrong: values of a user in a partition after a first array are counted twice. If array objects are shared, already the first aggregation is wrong: n+1 occurrences of one object count 2^n times instead of n+1 times, and a user who has a shared array twice in one partition doubles the vectors of all other partitions that use it, even if the values of that user are dropped, so limiting the number of partitions of a user does not limit the number of vectors that the user changes.", "quantifier": "For all numbers of users, partitions and values, all vector sizes, all mixtures of arrays and other sequences; the statements on right sums for all data without repeated array objects, those on shared arrays for any number of users, partitions and repetitions.", "why_tests_cant": "Tests build fresh lists for every call and look at the result of one call only; the input after the call, repeated calls and shared objects are never observed, and the number of affected partitions has no bound.", "anchors": ["pipeline_dp/combiners.py: VectorSumCombiner.create_accumulator, VectorSumCombiner.merge_accumulators", "pipeline_dp/contribution_bounders.py: SamplingCrossAndPerPartitionContributionBounder.bound_contributions", "pipeline_dp/pipeline_backend.py: LocalBackend.group_by_key, LocalBackend.sample_fixed_per_key, LocalBackend.combine_accumulators_per_key"]}
{"id": "C98", "title": "Budget weights of any sign", "statement": "AggregateParams and SelectPartitionsParams accept any number as budget_weight, and so do request_budget and scope; only AddDPNoiseParams checks it. For any weights the granted epsilons, multiplied by their counts, still add up as signed numbers to the epsilon of the accountant, or all of them are 0, and the same holds for delta. What can be used, the positive part, stays within the epsilon of the accountant exactly if no granted epsilon is negative. Every budget gets its signed share: the weight of the call over the sum of the weights of the calls, times the weight of the request over the sum of the weights within the call; if the weights of the calls add up to 0 all epsilons are 0. So for every factor k > 1 two calls with suitable weights run without an exception and give the first metric k times the epsilon of the whole pipeline, and a single call with private partitions and a negative weight gives either its partition selection or its metrics more than the whole epsilon. A call raises ZeroDivisionError on leaving its scope exactly if the weights within it add up to 0: for weight 0 with public partitions, for weight -1/n with private partitions and n budgets of metrics; its mechanisms stay registered then.", "quantifier": "For all histories of calls on the accountant and all sequences of engine calls, of any length, with any rational weights, counts, totals and announcements (shares and failing calls: without announcements).", "why_tests_cant": "Tests use positive weights only; how much can be overspent has no bound and depends on all weights of the pipeline together.", "anchors": ["pipeline_dp/budget_accounting.py: NaiveBudgetAccountant.request_budget, NaiveBudgetAccountant.compute_budgets, BudgetAccountantScope._normalise_mechanism_weights", "pipeline_dp/aggregate_params.py: AggregateParams.budget_weight, SelectPartitionsParams.budget_weight, AddDPNoiseParams.__post_init__", "pipeline_dp/dp_engine.py: DPEngine.aggregate, DPEngine.select_partitions, DPEngine._select_private_partitions_internal"]}
