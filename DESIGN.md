# PipelineDP formal model: design

Subject: OpenMined/PipelineDP, source in `/repo` (read as text, never run).
Prover: Lean 4.33.0 with Mathlib modules imported one at a time. Build: `lake build` in `lean/`.

Files: `properties.jsonl` (the properties), `MANIFEST.json` (status and theorems per property), `AXIOMS.md` (axioms per theorem),
`seeded/LOG.jsonl` (mutation tests), `tools/` (scripts which write MANIFEST.json and AXIOMS.md).

## 1. Trusted base

* Lean's kernel and at most the three standard axioms `propext`, `Classical.choice`, `Quot.sound`. `AXIOMS.md` lists the axioms of every
  theorem of the manifest. No axioms of our own, no `sorry`/`admit`, no `native_decide`/`bv_decide`, no `implemented_by`, no `unsafe`.
* The reading of the Python source. Every model definition cites file and lines in `/repo` and says where it simplifies. The model is not
  extracted from the code and the code is not run.
* The idealisations of section 2 and the assumed behaviour of external code, which enters theorems as parameters or hypotheses:

| External code | How it enters | What is assumed |
|---|---|---|
| PyDP Laplace noise | density `laplaceDensity`, scale = sensitivity/epsilon | the documented distribution, independent samples (C58_laplace_privacy_loss, C60) |
| PyDP Gaussian noise | standard deviation `sigma eps delta l2` | nothing; in C62 `GaussianContract`: noise of this deviation on values of L2 distance at most `l2` is (eps, delta)-DP |
| PyDP partition selection | `keep : key → count → Bool`, thresholds | nothing; in C62 `SelectionContract` and `ThresholdingContract`: deciding on all partitions is (eps, delta)-DP if one id counts once in at most `l0` of them |
| PyDP quantile tree | a commutative monoid with `entry`; in C75 the multiset of the values added, `compute_quantiles` is a parameter | merging of trees is associative and commutative; `TreeContract`: if one user adds at most `linf` values to each and values to at most `l0` of the trees, all results are (eps, delta)-indistinguishable, for lower < upper bound |
| `dp_accounting` PLDs | `PldLib`, `composedEps` | nothing; tightness and termination theorems state their hypotheses; in C67 `PldContract` |
| `random`, `np.random` | `Rng`, sampling functions | a sample of n distinct positions; for C64 on LocalBackend also that `np.random.choice` is uniform and independent per key (`UniformPicks`); for C96 that the samples of `np.random.laplace` and `np.random.normal` have these distributions and are independent (`Drawn`) |
| Beam and Spark operations | `Backend.Lawful`, `Ops.Lawful`, `IsCombine`, `IsCoGroup`, `IsJoin` | documented contract of each operation; order and reduction trees are free |
| `CombinePerKey` with a callable on Beam (C78) | `Calls`: the callable is applied to lists of elements and earlier results | every value of a key enters once |
| placement of rows on Spark (C77) | `blocks c`, `sparkTree`: blocks of `c` consecutive rows; `reduceByKey` folds the values of a key in each block in order, then the results of the blocks | nothing in the contracts and in the statements for one row per block; the gap is stated for this placement |
| hash in `sampling_utils` | function to 64 bit values | nothing |
| manager processes of `multiprocessing` | atomic steps | each call to the manager is atomic |
| `scipy`/`numpy` approximation of the Poisson binomial | function `approx` of the moments | nothing |

`Backend.Lawful` and `Ops.Lawful` are not empty: `C39_local_backend_lawful` and `localOps_lawful` prove them for the local backend.
The contracts of C62 are not empty: `gaussianContract_example` (a deviation for which Gaussian noise is proved to be (eps, delta)-DP),
`selectionContract_example` and `thresholdingContract_laplace` (Laplace thresholding), together `exampleLibrary_contract`.
C84 assumes in addition that thresholding is private on known partitions with 0 or more privacy ids (`ThresholdsKnownPartitions`), which
`thresholdsKnownPartitions_laplace` shows to be satisfiable. `ThresholdingContract` says nothing about a count of 0.

## 2. Modelling conventions

* **Numbers.** Python floats are exact: `ℚ` where only field operations are used, `ℝ` where `sqrt`/`exp` occur. Rounding is not modelled,
  except where it is the point (C28: an arbitrary rounding function in the budget split; C36: an arbitrary inexact reciprocal).
  Parameter validation (C26, C27) has NaN, infinities and non-integers. Ints are `ℕ`/`ℤ`.
* **Collections.** A collection is a `List`. Iterator exhaustion is ignored, except where it changes results (C38, C40: one-shot generators).
  `dict`/`defaultdict` is an association list in insertion order. Where a distributed backend may reorder or combine in any tree, theorems
  quantify over permutations and merge trees.
* **Randomness.** Every random choice is a parameter and theorems quantify over all outcomes. Two neighbouring runs are coupled by giving
  the same key the same choices (`Backend.KeyLocal`). This holds where a sample is drawn from the values of one key at once (local,
  multi-process, Beam), on Spark only if the order in which the values of a user are reduced does not depend on the rows of other users
  (C77). C43 counts outcomes exactly.
* **Exceptions** are values (`Except`/`Option`).
* **Mutable objects** (accountant, mechanism specs, label generator, reports, query builder) are states with step functions; theorems
  quantify over all histories.
* **Python truthiness** of `0`, `None`, `[]`, `""` is modelled where the code relies on it.
* Specifications are in `Spec.lean` files or in a section "Specification" of the module; property theorems are named `Cnn_…`.

## 3. Properties, models and proofs

| Id | Model (`lean/Verif/…`) | Proof |
|----|-------|-------|
| C01, C02, C03 | `Budget/Model`: accountant state, `step`, `run` | invariant over histories (`Inv`, `SgnInv`), sums over the mechanism list |
| C04 | `Budget/Scopes`: forests of scopes | refinement: bottom-up rescaling = top-down division, induction over forests |
| C05 | `Budget/Aggregations` | algebra over histories of aggregations; witness for delta |
| C06, C07 | `Budget/Pld`: doubling, bisection, arbitrary oracle | loop invariants; termination iff; witnesses for GENERIC/thresholding accounting |
| C08–C13 | `Bounding/Model`: five bounders over any lawful backend | list induction, `Subperm`; two-run coupling for non-interference |
| C14–C18 | `Engine/Params`, `Engine/Model`, `Engine/Combiners` | one user's entries (`UserEntries`), norms; witnesses where the code under-declares |
| C19, C20 | `Engine/Combiners` | merge tree induction |
| C21, C22 | `Engine/Release` | case analysis over metrics; field arithmetic |
| C23–C25 | `Engine/Model`; `EndToEnd/PublicGaps` for thresholding | list induction, permutation lemmas |
| C26–C28 | `Validation/Model` | decision logic (iff); induction over the split |
| C29, C30 | `PrivateBounds/*` | real analysis of exp; sensitivity of the score by list induction |
| C31, C32 | `Histogram/Bins` | loop invariants, divisibility |
| C33–C36, C52, C53 | `Histogram/*` | list induction, sums, sorting, piecewise linear interpolation |
| C37 | `Backend/Labels` | invariant over histories; well-founded search |
| C38, C39, C41, C57 | `Backend/*` | list lemmas, reduction trees |
| C40 | `Backend/MultiProc`: small-step interleaving semantics | invariants over schedules; witness schedule |
| C42, C43 | `Analysis/Poisson`, `Analysis/PerPartition` | induction on the probabilities; sums over subsets |
| C44, C45 | `Analysis/Compound`, `Analysis/CrossPartition` | representation invariant over merge trees; homomorphism |
| C46, C47, C55, C56 | `Analysis/Tuning`, `Strategy`, `Config`, `Reports` | induction, case analysis |
| C48 | `Analysis/Summary` | counting |
| C49, C50, C51 | `Private/*` | induction over operation lists; field-by-field comparison; decision logic |
| C54, C58, C59 | `Engine/AddNoise`, `Engine/Mechanism`, `Engine/Report`, `Engine/ReportBounds` | case analysis, induction over calls, densities |
| C60 | `EndToEnd/Model`: queries → budget requests → accountant → accumulators → noisy numbers, from the models above | composition of C01, C03, C14–C17, C21, C23, C58; products of densities, then measures (`EndToEnd/Probability`) |
| C62 | `EndToEnd/Calls`: calls with public, private or thresholded partitions and `select_partitions`; `EndToEnd/CallsSpec`: contracts and the distribution of a release | (eps, delta)-indistinguishability of products (`EndToEnd/Approx`), masking of dropped partitions (`Mask`), one pair of laws per call (`CallPair`, `CallAggregate`, `CallSelect`), budgets from C01–C03 (`CallsBudget`) |
| C63 | `EndToEnd/Shares`: share of each budget; `EndToEnd/Documented`, `Releases`: documented values, changes, decisions | nested weights from C04's forests; sensitivities by case analysis; C61 for the values; induction over the calls |
| C64 | `Analysis/Engine`: rows to metrics (`analyze`); `Analysis/Sampling`: finite probability spaces, uniform choices; `Analysis/EngineRuns`, `Predicts`, `PredictsSelection`: random executions of the engine model | merge trees give C44's metrics; moments and Poisson binomial distribution of independent uniform choices; engine values as sums over kept users; `Analysis/LocalRuns`: uniform picks of positions give the uniform choices on LocalBackend |
| C65 | `Analysis/Perform`: the whole `perform_utility_analysis` (options, budgets, combiners, packing, reports) | budget algebra of equal weights against the shares of the engine (C63's accounting), C64 for the partitions, C55/C56/C45 for configurations, bins and averages |
| C66 | `EndToEnd/ChosenBound`: `PrivateBounds/L0` (C30) followed by the pipelines of C62 | adaptive composition over the finite set of candidates; witness for the uncounted budget |
| C67 | `EndToEnd/PldModel`: `PLDBudgetAccountant` under the pipelines of C62, contract of `dp_accounting` as a relation between privacy loss distributions and pairs of distributions | grouping of all numbers by budget (`PldNumbers`), one call (`PldCall`), composition and C06/C07 (`PldProps`); reference library and example (`PldRuns`) |
| C68 | `EndToEnd/Adaptive`: programs in rounds of the calls of C62, the calls of a round depend on the partitions released before | adaptive composition of (ε, δ) over finitely many outcomes, induction over the rounds (`AdaptiveProps`); the graph does not depend on public partitions; cover by finite sets of partitions and labels |
| C69 | `Analysis/Normal`: `compute_pmf_approximation` and its call with the moments, over the reals with Mathlib's Gaussian distribution | derivative of the refined distribution function and its limits; it increases for skewness at most 3, and between neighbouring counts for smaller deviations because the mean is then close to an integer; Gaussian moments; tail bounds (`NormalProps`) |
| C70 | `EndToEnd/Collections`: programs on Beam and Spark private collections (C49, C50) with any accountants, as lists of releases; what they call on the engine and what may be released | the rows of a derived collection without a user are the rows derived from the raw data without the user; each release is a pair of C62; declared bounds make the engine ignore privacy ids (`CollectionsProps`) |
| C71 | `EndToEnd/Groups`: no new model of code; removing a group of ids, changing their rows, and a family of accountants, each with its pipeline (C62) | the ids of the group are removed one after the other (C62 for each step, transitivity of indistinguishability), changed data through the common remainder; several accountants by independence of their noise and composition |
| C72 | `EndToEnd/Frames`: `run_query` from the budget to what may be released, on the builder of C51 and the engine of C62 | the builder gives only supported calls (C51) which `AggregateParams` accepts (C26); the extracted rows of the DataFrame without a privacy value are the extracted rows without it; C62, and composition as in C71 |
| C73 | `EndToEnd/Mixed`, `EndToEnd/MixedProps`: pipelines of the calls of C62 and of `add_dp_noise`; the user's collection is a function of the data, its sensitivities are a hypothesis | few and small differences have small L1 and L2 norms; the Laplace law, and PyDP's promise for Gaussian noise, for these norms; then composition as in C62; the step refines the model of C54, and pipelines without it are those of C62 |
| C61 | `Engine/Exact`, `EndToEnd/PublicGaps`: `partitionAccumulators` on data within the bounds | bounding keeps all rows (C12 lemmas), entries are the cells of the data, merge trees are sums |
| C74 | `EndToEnd/Custom`, `CustomCall`, `CustomProps`, `CustomMore`, `CustomExample` (and `Veil`): custom combiners are objects whose fields are written when the graph is built and read when it is evaluated; a class is given by its requests, its pure functions and the distribution of its result; its privacy is a hypothesis (the documented responsibility of its author) | budgets of an object are its own if no object is used twice (induction over the calls); merging in any tree gives the merge of all accumulators; the observations of a call as a mixture over the hidden decisions, composed with those of C73; witness of an object used twice |
| C75 | `EndToEnd/Percentiles`, `PercentilesCall`, `PercentilesProps`, `PercentilesMore`, `PercentilesExample`: as C74, with PERCENTILE next to the other metrics; the joint distribution of the percentiles of a partition comes from the tree library | bounded entries of the removed user give at most `linf` values in at most `l0` trees; numbers and percentiles of a call as one family of labelled observations, masked by the decisions, composed over the calls; names of percentiles distinct iff the call is accepted |
| C76 | `Analysis/Tune`, `TuneProps`, `TuneMain`: `tune` from the checks of its arguments to the result, composed of the models of C46, C47, C55, C65 | the candidates with their strategies are a supported configuration (C46, C47, C55), so C65 gives the reports; their order and `argmin` (C46). Raw data only; a `strategy_selector_factory` of the caller is not modelled |
| C77 | `Backend/Spark`, `Backend/SparkRows`, `EndToEnd/SparkSum`, `SparkGap`, `SparkExample`: Spark's `sample_fixed_per_key` and `combine_accumulators_per_key` as reductions over rows placed in blocks; a fair choice at every node | contracts from C39 for every reduction tree; for one row per block (or one block) `KeyLocal`, so C60 applies; the gap by computing the law of the sum of kept values under both placements (binomial with 1/4 and 1/2) and an exponential tail bound |
| C78 | `Backend/Combine`: `CombinePerKey` of a callable on Beam as nested calls on elements and earlier results, `reduceByKey` on Spark as in C77 | induction on the nesting gives a merge tree with the values of the key as leaves; the loop of Beam equals `functools.reduce` iff falsy accumulators are neutral |
| C79 | `EndToEnd/Vector`, `VectorProps`, `VectorMore`: `VectorSumCombiner` as a class of C74's pipelines (`vectorClass`); refinement to the combiner of C18 (sums, release, requests) | clipping keeps vectors in the ball, the change of one user is bounded per coordinate or in total, Laplace/Gaussian on the product of partitions and coordinates; converse by the probability of a corner of the boxes |
| C80 | `EndToEnd/Loss`, `LossProps`, `Unselected`, `LossExample`: one `aggregate` call of C62's pipelines with public partitions and Laplace noise; a single user with the largest allowed influence | lower bound: the probability that all released numbers lie beyond the values of the user (a corner) has the ratio `exp(loss)`, so any `(e', d')` has `d' >= c (1 - exp(e' - loss))`; upper bound from C62; presence of an unselected partition is a certain event |
| C81 | `Engine/OneShot`, `EndToEnd/OneShotLaw`: the filter and the empty accumulators of `aggregate` on `LocalBackend` reading the same generator (rows first, then the rest of the generator) | induction over the rows with the unread part of the generator as state; the keys of accepted rows followed by the rest form a sublist of the listing; presence of a partition is a certain event |
| C82 | `Engine/Serialise`: the cache of named tuple types of a process, `__reduce__`; a combiner and its pickled copies with the budget and the cached mechanism of each (which names `namedtuple` accepts and `create_mechanism` are parameters) | state machines over arbitrary histories, invariants of the cache and of the cached mechanisms |
| C83 | `EndToEnd/Accepted`, `AcceptedPercentiles`: the validation of C26 in front of the calls of C62 | decision logic: for accepted parameters every mechanism and decision of a partition is created, or none is released, depending on a list of conditions on the parameters |
| C84 | `EndToEnd/PublicThresholding`: the pipeline of C62 where thresholding may come with public partitions | the requests of the budget are those without public partitions, so C62's budget lemmas apply; numbers of users differ by at most 1 in at most l0 partitions; composition as in C62 |
| C85 | `Histogram/Compare`: `FrequencyBin.__eq__` and the equality of `Histogram` generated by `dataclass` | bins that compare equal agree in all fields that quantiles and ratios read; C32 and C33 for histograms of data; witness for the field that is not compared |
| C86 | `EndToEnd/AdaptiveMixed`: programs in rounds (C68) of the steps of C73; the collection given to `add_dp_noise` is a function of the data and of the partitions released before | adaptive composition as in C68 with the pairs of laws of C73; programs without `add_dp_noise` are those of C68; the decision on a partition of the collection is deterministic, which gives the converse for partitions that were not selected |
| C87 | `Engine/Readable`: the text of the parameters in a report, character by character; `str` of a number is a parameter, injective, without comma and line end | the lines are recovered from the joined text, and the entries from the lines because no label begins another one; custom combiners are in the model but not in the theorems, since their names are free text |
| C88 | `Private/QueryFails`: the model of C51 for arbitrary keys and names of columns | the dictionary of a result row by induction; a key with too few parts leaves a field of the tuple missing |
| C89 | `EndToEnd/Session`: a tree of pipelines of C73, one accountant each; the branch is chosen by any measurable function of what was released | induction over the tree; adaptive composition for countably many decisions, with the hypotheses of C73 for every pipeline that may be chosen |
| C90 | `EndToEnd/Explained`: the numbers in the stages of the report (`explain_computation` of the combiners, `describe` of the mechanisms, partition selection), for the calls of C62 | the text of a mechanism and the noise come from the same object; the shown budgets are a permutation of the requests of the call, whose sums are those of C63; before `compute_budgets` every property of a spec raises |
| C91 | `EndToEnd/Accuracy`, `AccuracyAll`: the distributions of the numbers of C63; `meanFrom` and `varianceFrom` are the mean and variance computed from the noisy numbers, proved equal to the model of `MeanMechanism.compute_mean` and `compute_dp_var`; for all partitions at once the joint distribution of C62 | tails of the Laplace density by integration, its mean by symmetry; Gaussian tails from the moment generating function; errors of count and sum give an error of the mean, then a union bound; for all partitions the product of the probabilities. The numbers of MEAN and VARIANCE are independent (PyDP draws fresh noise for each) |
| C92 | `EndToEnd/Unbiased`: the joint distribution of C62 (`observedLaw`), conditioned on any event `B` on the decisions in which the partitions are released | the numbers of a released partition are shown as they are (`hide`), so an event on decisions and shown numbers is a product; labels of the numbers of a call are distinct, so that each documented number is the one that is shown. That PyDP draws fresh randomness for each decision and each noise is part of the trusted base (definition of `observedLaw`); what is proved is that the decisions and numbers of the engine are made from separate draws, and which ones |
| C93 | `EndToEnd/NoiseAccuracy`: pipelines of C73 (`planSteps`, `evalSteps`) with `add_dp_noise` steps only, on a naive accountant | induction over the calls: each registers one mechanism of weight 1 (`request_budget` gets no weight, finding of C54), so the total weight is the number of calls; the budgets after `compute_budgets` give the mechanism, and the laws are those of C91. Ideal noise; elements of the collection are finite numbers |
| C94 | `EndToEnd/VectorAccuracy`: the VECTOR_SUM call of C79 (`vectorClass`, `evalCustom`) on data within the bounds; one call alone on a naive accountant (`planX`, `evalX`) | nothing is dropped (as in C61), so the merged array is the sum over all rows; clipping by C18; the law of each coordinate as in C91, and coordinates are a product measure. Private partitions only (public ones fail on empty partitions, C18) |
| C95 | `Backend/Annotations`: sessions of registrations, stages and engine calls on a backend with its label generator (C37) and an accountant (C05); the calls are seen through their operations on the accountant and their final collection | induction over sessions: freshness of labels, the registered annotators as a function of the events before the call, announced budgets as a function of the weights. An annotator is a function with a list of stages it adds; annotators that register annotators are not modelled |
| C96 | `Analysis/MonteCarlo`: `np.quantile` (method `linear`) over the sums of the numbers two generators return; the generators are functions of their scale (and location) | order statistics by counting in the sorted list; the number of samples at most x is a sum of pairwise independent indicators, so Chebyshev's inequality bounds how far it is from its mean, and the strong law gives convergence almost surely; F is strictly increasing and continuous because the normal law has a positive density. Pairwise independence and the two laws are hypotheses; generators that meet them are constructed beside the theorems |
| C97 | `Engine/VectorAlias`: a memory with addresses; values are arrays in it or other sequences; `create_accumulator` as a loop on the memory, accumulators are addresses that are read when they are merged | induction over values and over the pairs of user and partition, with a frame condition on all other addresses. Not modelled: dtypes, backends that serialise values (they work on copies) |
| C98 | `EndToEnd/Weights`: the accountant of C01 and the calls of the engine of C62 with weights of any sign | the invariant of C01 needs no signs: the sums balance; positive parts compared with signed sums; a call on the accountant computed exactly, induction over the calls |

## 4. What is modelled and what is not, by file

| File in `/repo` | Modelled | Not modelled |
|---|---|---|
| `pipeline_dp/budget_accounting.py` | both accountants, scopes, restrictions, search for the noise multiplier | PLD composition (parameter); `MechanismSpec` text |
| `pipeline_dp/contribution_bounders.py` | all bounders | — |
| `pipeline_dp/dp_engine.py` | `aggregate`, `select_partitions`, `add_dp_noise`, `calculate_private_contribution_bounds`, checks, report stages | type checks of arguments |
| `pipeline_dp/combiners.py` | all built-in combiners, compound combiner, factory | quantile tree internals (parameter), bodies of custom combiners (parameters with a contract), wording of explanations (their numbers are modelled) |
| `pipeline_dp/dp_computations.py` | sensitivities, additive mechanisms, mean/variance, vector clipping, exponential mechanism, budget split | noise generation of PyDP |
| `pipeline_dp/aggregate_params.py`, `input_validators.py` | acceptance of parameters, their text in reports | deprecated aliases |
| `pipeline_dp/partition_selection.py` | passing of parameters (C58_thresholding) | PyDP strategies |
| `pipeline_dp/pipeline_backend.py` | local operations used by engine and analysis, Beam labels and key filter, Spark sample/filter/combine/sum/count (with placement in C77), Beam combine/reduce/sum per key, multi-process count/group/sample, annotators (C95) | runtimes of Beam/Spark |
| `pipeline_dp/pipeline_functions.py` | key_by, size, collect_to_container, min/max per key, sharded filter | — |
| `pipeline_dp/private_contribution_bounds.py` | L0 calculator, scoring, candidate bounds | — |
| `pipeline_dp/private_beam.py`, `private_spark.py` | map/flat_map, parameters of the wrappers, `CombinePerKey` | Beam labels of wrappers, type checks |
| `pipeline_dp/dataframes.py` | query builder, extraction, conversion of results | Spark DataFrame types |
| `pipeline_dp/report_generator.py`, `sampling_utils.py` | all | |
| `pipeline_dp/dataset_histograms/*` | count and sum histograms on raw and pre-aggregated data, quantiles, ratio dropped, error estimator | — |
| `analysis/*` | `perform_utility_analysis`, pre-aggregation, contribution bounders, utility analysis engine, per-partition and cross-partition combiners, Poisson binomial, configurations, tuning, strategy selection, summary, reports | the normal approximation is a parameter `approx` of the analysis (C44) and is modelled on its own over the reals (C69); the generators of numpy are parameters of the Monte-Carlo quantiles (C96); plotting/printing |

## 5. Findings: where the code does not do what is promised

Each is a theorem; the property of the same number says what holds instead.

* C03: `compute_budgets` inside a scope fails after the accountant was marked as finalized; it can not be repeated
  (`C03_compute_inside_scope_is_fatal`).
* C04: with `count > 1` a scope does not get its weight (`C04_counts_break_scope_shares`).
* C05: the announced delta can be wrong (`C05_announced_delta_can_be_wrong`).
* C07: PLD accounting of GENERIC mechanisms ignores weight and sensitivity, thresholding mechanisms are composed as a repetition of the
  previous mechanism and not at all at the start (`C07_generic_weights_overspend`, `C07_leading_thresholding_not_accounted`,
  `C07_later_thresholding_repeats`).
* C16: with already enforced bounds and `min_sum_per_partition`, clipping is per row: the declared sensitivity is too small
  (`C16_per_partition_clipping_broken_if_enforced`).
* C17: the noise of the squares in VARIANCE is too small for ranges around zero (`C17_variance_squares_not_covered`).
* C18: VECTOR_SUM clips only the released vector; the noise does not depend on the norm (`C18_one_user_exceeds_declared_sensitivity`), and
  fails with public partitions (`C18_public_partitions_always_fail`).
* C26: PERCENTILE with VECTOR_SUM is accepted without bounds (`C26_percentile_unbounded_with_vector_sum`). C27: NaN is accepted as epsilon
  (`C27_nan_is_accepted`).
* C30: the exponential mechanism fails when all weights underflow (`C30_underflow`).
* C34: negative quantiles raise an unrelated error. C53: the estimator fails on empty histograms, and
  negative sums give wrong ratios, a total sum of 0 a division by zero (`C53_negative_sums`, `C53_zero_total_sum`).
* C37: labels of backends with suffixes of different lengths can collide (`C37_suffixes_may_collide`).
* C38: on Spark repeated keys multiply rows; a generator of keys loses rows (`C38_spark_join_correct_iff`, `C38_generator_loses_rows`).
* C39: Spark's sample of size 0 keeps single values (`C39_spark_sample_zero`). As its docstring warns, its sample is not uniform: one of m
  values is never kept with probability 1/m unless m is a power of two (`C39_spark_sample_is_not_uniform`), so the predictions of the
  utility analysis (C64) need not hold for the engine on Spark.
* C77: worse, the sample of one user on Spark depends on the rows of other users: `reduceByKey` first reduces inside a block of rows, so
  one additional row moves the boundaries of the blocks for all later users and changes the probabilities with which their values are kept.
  For blocks of c ≥ 2 consecutive rows one SUM with Laplace noise is not (ε', δ')-differentially private for any ε' and any δ' < 1
  (`C77_spark_sampling_breaks_privacy`; users with 2c rows whose last value is 1, one more user with one row in front).
  With one row per block, or all rows in one block, the pipeline is private (`C77_spark_single_rows_private`).
* C78: `BeamBackend.combine_accumulators_per_key` tests `if res:` instead of `if res is not None:`, so a falsy accumulator which is not
  neutral is lost (`C78_beam_loses_falsy`). The accumulators of this repository are non-empty tuples and not affected.
* C79: the noise of VECTOR_SUM is calibrated to the numbers of partitions and of contributions, not to `vector_max_norm`. With Laplace noise
  the true loss is `spread / (max_contributions_per_partition * vector_size)` times the requested epsilon (`C79_actual_loss`,
  `C79_loss_is_attained`), and no `(eps, delta)` with `delta < 1` holds for all norms (`C79_large_norms_are_not_private`).
* C80: the defects of C16 and C17 end to end. An `aggregate` call with VARIANCE of values in `[lo, hi]` around 0 spends
  `eps * (1 + ((hi - lo)^2 / (2 max(lo^2, hi^2)) - 1) / (3 * parts))`, e.g. `4/3 eps` for `[-1, 1]`; SUM with bounds per partition and
  `contribution_bounds_already_enforced` spends up to `max_contributions_per_partition` times the budget of SUM
  (`C80_loss_of_one_user`, `C80_defects_break_privacy`); apart from these, the promised epsilon is kept and is the smallest possible
  (`C80_private_exactly_without_defects`, `C80_promised_epsilon_is_attained`).
* C80: `public_partitions_already_filtered=True` without public partitions is accepted and releases every partition of the data without
  selection: a partition of one user reveals this user, whatever the budget (`C80_unselected_partitions_reveal_users`).
* C81: a generator of public partitions on `LocalBackend` (e.g. the result of `select_partitions`) is read by the filter and by the empty
  partitions: at most one row per public partition is used, one row outside of the public partitions ends the input and the result
  (`C81_at_most_one_row_per_partition`, `C81_foreign_row_ends_the_input`), and the released partitions reveal users whatever the budget
  (`C81_generator_reveals_users`).
* C83: parameters that pass all checks and fail when results are computed, after the budget has been spent: SUM alone with bounds [0, 0];
  SUM alone with bounds per partition and `max_contributions`; MEAN without VARIANCE and with `min_value == max_value`;
  `max_contributions` with private partition selection or with post-aggregation thresholding. These are all such parameters for the
  scalar metrics (`C83_evaluable_calls_run`, `C83_other_calls_release_nothing`, `C83_other_public_calls_fail`) and with percentiles
  (`C83_evaluable_percentile_calls_run` and the others).
* C61: SUM with bounds per partition that do not contain 0, with public partitions: the engine adds one empty accumulator for each
  listing of a public partition, and the empty accumulator is the clipped sum of no values. Every public partition, also one with data,
  is off by that number times its listings (`C61_public_listings_add_to_sums`, `C61_public_sum_exact_iff`).
* C23: `post_aggregation_thresholding` with public partitions is accepted, and the thresholding applies to the public partitions too
  (dp_engine.py:185-186, 546-551), so a public partition can be missing in the output
  (`C23_thresholding_decides_public_partitions`). What PyDP decides for 0 users is not modelled.
* C85: `FrequencyBin.__eq__` compares `self.min` with itself, so histograms with different smallest values compare equal
  (`C85_minimum_is_not_compared`); tests which compare histograms cannot see a wrong minimum.
* C40: the multi-process count loses updates, and a generator is consumed by the first pass (`C40_count_loses_updates`, `C40_count_of_generator`).
* C44: several value columns with an empty public partition: IndexError depending on merge order; simulated selection fails on a partition
  without users (`C44_selection_needs_users`).
* C45: dropped data is misreported iff values are clipped from below (`C45_accounting_iff`); the relative rmse of a negative sum is negative.
* C46: tuning fails with more columns than candidates; non-positive upper bounds are possible.
* C47: with several metrics the chosen noise kind is not always the best one; a fixed noise kind is ignored by the choice of the strategy.
* C48: repeated public partitions are miscounted (`C48_duplicates`).
* C50: Beam wrappers drop `budget_weight` and `contribution_bounds_already_enforced`; Spark drops `pre_threshold` and, for
  `privacy_id_count` and `select_partitions`, `budget_weight`; `CombinePerKey` drops `budget_weight` and public partitions.
* C51: `groupby([c])` unpacks the key: only the first character of a string is returned, numbers fail (`C51_one_element_list`).
* C54: `add_dp_noise` ignores `budget_weight`; a rejected call has already taken its share (`C54_weight_ignored`, `C54_failed_call_charged`).
* C55: an empty list of strategies and mixed kinds of bounds are accepted and fail later.
* C57: the size of an empty collection is an empty collection; `collect_to_container` with an empty part fails.
* C58: the consistency tolerance of sensitivities is absolute (`C58_absolute_tolerance`).
* C63: partition selection requests its budget with weight 1, the metrics of the same call with `budget_weight`: `budget_weight` changes
  not only the share of the call but also the division within the call (`innerWeight`, `C63_weight_shifts_selection`).
* C59: cross-partition bounding is missing from the report in one case; `text()` raises NameError before the budget is computed;
  the lines on contributions per partition and on partitions say `max(actual, bound)` where `min` is kept
  (`C59_cross_and_per_lines_name_the_larger_number`, `C59_per_partition_line_names_the_larger_number`).
* C64: with `partitions_sampling_prob < 1` a public partition which is not sampled is analysed as an empty one
  (`C64_unsampled_public_partition_looks_empty`); pre-aggregated data counts the partitions of a user before non-public ones are dropped
  (`C64_preaggregated_public_partitions_differ`). SUM next to COUNT: the engine sums a sample of the rows, the analysis all of them, so the
  prediction needs the data within the bound per partition.
* C65: the utility analysis requests every budget with weight 1 and ignores `budget_weight`; for private partitions and another weight the
  predicted noise and selection are not those of the engine (`C65_weight_is_ignored`).
* C65: the analysis of SUM with `min_value` and `max_value` only, and the analysis with `max_contributions` (no `max_partitions_contributed`),
  both accepted by `aggregate()`, fail as soon as there is data (`C65_sum_needs_bounds_on_sums`, `C65_needs_partitions_bound`).
* C65: with private partitions `partition_selection_strategy=[]` in the configurations, accepted and elsewhere treated as not given, makes
  the analysis of any data fail (`C65_empty_strategies_fail`).
* C65: nothing rejects configurations with bounds on the sums for parameters with bounds on the values.  The contributions are then clipped to
  the bounds on the sums, but the predicted noise is that for the bounds on the values (`C65_value_bounds_hide_sum_bounds`).
* C66: `calculate_private_contribution_bounds` spends `calculation_eps` without requesting it from the accountant
  (`C66_choice_is_not_counted`).
* C67: `post_aggregation_thresholding` with public partitions is accepted with a PLD accountant, but the thresholding mechanism gets
  only a noise standard deviation, so the evaluation always fails (`C67_pld_thresholding_fails`).
* C74: the same combiner object in two calls: `set_aggregate_params` and `request_budget` overwrite its fields, both calls compute with
  the second budget and its parameters; with different weights the total budget is exceeded (`C74_reused_object_breaks_privacy`).
* C75: a percentile asked for twice (also 50 and 50.0) raises `ValueError` only when the graph is built, after budgets were requested
  (`C75_repeated_percentile_is_rejected`). PERCENTILE with `min_value` = `max_value` is accepted, though the tree needs a proper interval
  (outside `SupportedAny`).
* C76: `tune` fails with an `AssertionError` if no partition is analysed (no data, or none sampled), `C76_no_partition`. The recommendation
  ignores partition selection: a configuration which drops all partitions has the predicted error 0 (`C76_dropped_is_perfect`). Only the
  first metric is checked, and the metric which is minimised is SUM, COUNT, PRIVACY_ID_COUNT in this order, not the first one
  (`C76_minimised_metric`).
* C45: the errors caused by bounding the total number of contributions are always reported as 0 (`C45_l1_is_zero`).
* C67: a PLD accountant with only thresholding mechanisms raises AttributeError (`C67_pld_attribute_error`).
* C69: the approximation stops at the number of users but does not set the distribution function to 1 there: for any number of users kept
  for sure and one kept with probability 1/2 at least 1/400 of the mass is missing, and a partition kept for sure is predicted to be kept
  with a smaller probability (`C69_mass_missing`). The docstring claims that the dropped tails are below 10^-15.
* C88: public keys of a DataFrame query that have more parts than there are group-by columns are cut silently, so that different public
  keys give rows with the same key (`C88_long_keys_are_merged`); `groupby` promises that the keys of the output exactly coincide with the
  public keys. A query fails only after the budget is computed if an output column has the name of a group-by column, for example
  `groupby("count", …).count()` (`C88_query_succeeds_iff`).
* C90: the report of VECTOR_SUM shows neither its noise nor its budget; its stage reads `None`, because
  `VectorSumCombiner.explain_computation` has no `return` (`C90_vector_sum_is_not_explained`).
* C87: the reports omit parameters that decide what is released: the sensitivities of `add_dp_noise` (`C87_add_dp_noise_text`), and the
  strategy and the pre-threshold of `select_partitions` (`C87_select_partitions_text`) and of `aggregate`
  (`C87_text_determines_parameters`), so different computations have the same text of parameters.
* C97: VECTOR_SUM adds in place to the first array of each user in each partition, which belongs to the caller: a second aggregation of
  the same data on LocalBackend is wrong (`C97_second_call`), values that share an array object are summed wrongly (`C97_shared_array`),
  and one user in one partition can change the vectors of all partitions (`C97_one_user_changes_all_partitions`). The other properties
  on VECTOR_SUM (C18, C79, C94) treat values as immutable, that is, they hold for data without shared arrays that is used once, or
  given as lists or tuples.
* C98: `budget_weight` is not checked in `AggregateParams` and `SelectPartitionsParams`: with a negative weight in one call another call,
  or another mechanism of the same call, is granted more than the epsilon of the whole pipeline, without a limit and without an exception
  (`C98_no_limit`, `C98_one_private_call`); weight 0 with public partitions and -1/n with private ones raise `ZeroDivisionError` after
  the budgets were requested (`C98_failing_weights`, `C98_call_raises_iff`). What PyDP does with a negative epsilon is not modelled; if it refuses
  it, the call with the negative share fails when it is evaluated, and the other calls can still be released.

## 6. Mutation tests

`seeded/LOG.jsonl` has one line per attempt: a realistic bug is put in a model definition in a copy outside of this repository and the
project is rebuilt. `failed` are the theorems and lemmas which no longer prove, `depending_on_failed_lemmas` the property theorems which
use a failed lemma. An attempt for which at first everything still proved led to a tightened theorem (`first_attempt`, `tightened`) or is
explained (`note`): the edit does not change behaviour.
