import Verif.Histogram.Estimator
import Verif.Histogram.Props
import Verif.Engine.Mechanism

/-!
# Property C53: estimators created from the histograms of a dataset

Model of the constructor of `ErrorEstimator` and of the functions which create estimators
(`dataset_histograms/histogram_error_estimator.py:32-65, 141-238`).
-/

set_option linter.unusedSectionVars false
set_option linter.unusedVariables false
set_option linter.unusedSimpArgs false

namespace PDP.Histogram

open PDP.Engine (Err Metric NoiseKind Params sensCount sensPrivacyIdCount mkSens l1Sens l2Sens positiveOrNone)
open PDP.Engine.Mechanism (Additive createAdditive)

/-! ### Model -/

/-- `histogram_error_estimator.py:50-65` `_get_stddev_for_dp_mechanism`: `sigma` is the deviation computed by PyDP
for (epsilon, delta, sensitivity); its constructor rejects `None` for delta with `TypeError`. -/
noncomputable def baseStd (sigma : ℝ → ℝ → ℝ → ℝ) (noise : NoiseKind) (eps : ℝ) (delta : Option ℝ) : Except Err ℝ :=
  if noise = .laplace then
    if delta.isSome then .error .valueError else .ok (Real.sqrt 2 / eps)
  else
    match delta with
    | none => .error .typeError
    | some d => .ok (sigma eps d 1)

/-- The attributes of `ErrorEstimator` (`histogram_error_estimator.py:42-48`). -/
structure Estimator where
  base : ℝ
  metric : Metric
  noise : NoiseKind
  l0Table : List (ℚ × ℚ)
  linfTable : List (ℚ × ℚ)
  partitions : List Bin

/-- `histogram_error_estimator.py:32-48` `__init__`. -/
noncomputable def mkEstimator (sigma : ℝ → ℝ → ℝ → ℝ) (eps : ℝ) (delta : Option ℝ) (metric : Metric) (noise : NoiseKind)
    (l0Table linfTable : List (ℚ × ℚ)) (partitions : List Bin) : Except Err Estimator := do
  let base ← baseStd sigma noise eps delta
  .ok ⟨base, metric, noise, l0Table, linfTable, partitions⟩

/-- `histogram_error_estimator.py:67-105` `estimate_rmse` as a method. -/
noncomputable def Estimator.estimate (e : Estimator) (l0 : ℚ) (linf : Option ℚ) : Except Err ℝ :=
  estimateRmse e.metric e.noise e.base e.l0Table e.linfTable e.partitions l0 linf

/-- `histogram_error_estimator.py:141-184` `create_estimator_for_count_and_privacy_id_count`. -/
noncomputable def createCountEstimator (sigma : ℝ → ℝ → ℝ → ℝ) (h : CountHistograms) (eps : ℝ) (delta : Option ℝ)
    (metric : Metric) (noise : NoiseKind) : Except Err Estimator :=
  if metric ∉ [Metric.count, .privacyIdCount] then .error .valueError
  else
    let l0Table := ratioDropped h.l0
    let linfTable := ratioDropped h.linf
    let partitions := if metric = .count then h.partitionCount else h.partitionId
    mkEstimator sigma eps delta metric noise l0Table linfTable partitions

/-- `compute_ratio_dropped` on a histogram of sums, whose total may be 0 (`histograms.py:188-203`). -/
def sumRatioDropped (bins : List Bin) : Except Err (List (ℚ × ℚ)) :=
  if bins ≠ [] ∧ totalSum bins = 0 then .error .zeroDivision else .ok (ratioDropped bins)

/-- `histogram_error_estimator.py:199-238` `create_estimator_for_sum`: `linfSum` and `partitionSum` are the histograms
selected by `sum_index`. -/
noncomputable def createSumEstimator (sigma : ℝ → ℝ → ℝ → ℝ) (l0 linfSum partitionSum : List Bin) (eps : ℝ)
    (delta : Option ℝ) (noise : NoiseKind) : Except Err Estimator := do
  let linfTable ← sumRatioDropped linfSum
  mkEstimator sigma eps delta .sum noise (ratioDropped l0) linfTable partitionSum

/-! ### Which estimators can be created -/

/-- **C53.** An estimator is created if and only if the metric is COUNT or PRIVACY_ID_COUNT and delta is given exactly
for Gaussian noise. -/
theorem C53_created_iff (sigma : ℝ → ℝ → ℝ → ℝ) (h : CountHistograms) (eps : ℝ) (delta : Option ℝ) (metric : Metric)
    (noise : NoiseKind) :
    (∃ e, createCountEstimator sigma h eps delta metric noise = .ok e) ↔
      (metric = .count ∨ metric = .privacyIdCount) ∧ (noise = .laplace ↔ delta = none) := by
  unfold createCountEstimator mkEstimator baseStd
  by_cases hm : metric ∈ [Metric.count, .privacyIdCount]
  · have hm' : metric = .count ∨ metric = .privacyIdCount := by simpa using hm
    rw [if_neg (not_not.mpr hm)]
    cases noise <;> cases delta <;> simp [bind, Except.bind, hm']
  · have hm' : ¬ (metric = .count ∨ metric = .privacyIdCount) := by simpa using hm
    rw [if_pos hm]
    simp [hm']

/-- The deviation of the noise for given bounds, as the estimator sees it. -/
noncomputable def Estimator.noiseStd (e : Estimator) (l0 linf : ℚ) : ℝ := estimatorStd e.metric e.noise e.base l0 linf

/-- **C53.** The deviation which the estimator assumes is that of the noise which `aggregate()` adds to this metric
under these bounds, with the same budget: the mechanism built by the engine from the sensitivities of the metric has
this standard deviation.  For Gaussian noise PyDP's deviation is assumed to be proportional to the sensitivity. -/
theorem C53_noise_is_that_of_the_engine (sigma : ℝ → ℝ → ℝ → ℝ) (hsigma : ∀ e d s, sigma e d s = sigma e d 1 * s)
    (h : CountHistograms) (eps : ℝ) (delta : Option ℝ) (metric : Metric) (noise : NoiseKind) (e : Estimator)
    (he : createCountEstimator sigma h eps delta metric noise = .ok e) (p : Params) (l0 linf : ℕ) (h0 : 0 < l0)
    (hi : 0 < linf) (h1 : p.maxPartitions = some l0) (h2 : p.maxPerPartition = some linf)
    (h3 : p.maxContributions = none) :
    ∃ s m, (if metric = .count then sensCount p else sensPrivacyIdCount p) = .ok s ∧
      createAdditive sigma ⟨if noise = .laplace then .laplace else .gaussian, none, some eps, delta⟩ s = .ok m ∧
      m.std = e.noiseStd l0 linf := by
  obtain ⟨hm, hd⟩ := (C53_created_iff sigma h eps delta metric noise).mp ⟨e, he⟩
  have g0 : (0 : ℝ) < l0 := by exact_mod_cast h0
  have gi : (0 : ℝ) < linf := by exact_mod_cast hi
  have hsens : ∀ b : ℝ, 0 < b → mkSens (some (l0 : ℝ)) (some b) none none
      = .ok ⟨some (l0 : ℝ), some b, some (l0 * b), some (Real.sqrt l0 * b)⟩ := by
    intro b hb
    simp [mkSens, positiveOrNone, g0, hb, l1Sens, l2Sens]
  have hmem : ¬ metric ∉ [Metric.count, .privacyIdCount] := not_not.mpr (by simpa using hm)
  unfold createCountEstimator mkEstimator at he
  rw [if_neg hmem] at he
  have hs2 : Real.sqrt 2 ≠ 0 := by positivity
  rcases hm with rfl | rfl
  · refine ⟨⟨some (l0 : ℝ), some (linf : ℝ), some (l0 * linf), some (Real.sqrt l0 * linf)⟩, ?_⟩
    rw [if_pos rfl]
    cases noise with
    | laplace =>
      obtain rfl := hd.mp rfl
      simp only [baseStd, if_pos, Option.isSome_none, Bool.false_eq_true, if_false, bind, Except.bind] at he
      cases he
      refine ⟨_, by simp only [sensCount, h3, h1, h2, Option.map_some]; exact hsens _ gi, rfl, ?_⟩
      simp only [Additive.std, Engine.Mechanism.laplaceFromEpsilon, Engine.Mechanism.pyLaplace, Estimator.noiseStd,
        estimatorStd, if_pos, reduceCtorEq, if_false, Rat.cast_natCast]
      ring
    | gaussian =>
      cases delta with
      | none => simp at hd
      | some d =>
        simp only [baseStd, reduceCtorEq, if_false, bind, Except.bind] at he
        cases he
        refine ⟨_, by simp only [sensCount, h3, h1, h2, Option.map_some]; exact hsens _ gi, rfl, ?_⟩
        simp only [Additive.std, Engine.Mechanism.gaussianFromEpsDelta, Estimator.noiseStd,
          estimatorStd, reduceCtorEq, if_false, Rat.cast_natCast]
        rw [hsigma]; ring
  · refine ⟨⟨some (l0 : ℝ), some 1, some (l0 * 1), some (Real.sqrt l0 * 1)⟩, ?_⟩
    rw [if_neg (by simp)]
    cases noise with
    | laplace =>
      obtain rfl := hd.mp rfl
      simp only [baseStd, if_pos, Option.isSome_none, Bool.false_eq_true, if_false, bind, Except.bind] at he
      cases he
      refine ⟨_, by simp only [sensPrivacyIdCount, h3, h1, h2, Option.map_some]; exact hsens _ one_pos, rfl, ?_⟩
      simp only [Additive.std, Engine.Mechanism.laplaceFromEpsilon, Engine.Mechanism.pyLaplace, Estimator.noiseStd,
        estimatorStd, if_pos, reduceCtorEq, if_false, Rat.cast_natCast]
      ring
    | gaussian =>
      cases delta with
      | none => simp at hd
      | some d =>
        simp only [baseStd, reduceCtorEq, if_false, bind, Except.bind] at he
        cases he
        refine ⟨_, by simp only [sensPrivacyIdCount, h3, h1, h2, Option.map_some]; exact hsens _ one_pos, rfl, ?_⟩
        simp only [Additive.std, Engine.Mechanism.gaussianFromEpsDelta, Estimator.noiseStd,
          estimatorStd, reduceCtorEq, if_false, Rat.cast_natCast, if_pos]
        rw [hsigma]; ring

/-! ### Estimates for a dataset -/

variable {P K V : Type} [DecidableEq P] [DecidableEq K]

theorem getRatio_above (xs : List ℕ) (hpos : ∀ x ∈ xs, 1 ≤ x) (hne : xs ≠ []) (bins : List Bin)
    (h : IsCountHistogram xs bins) (bound : ℚ) (hb : ∀ x ∈ xs, (x : ℚ) ≤ bound) :
    getRatio (ratioDropped bins) bound = .ok 0 := by
  obtain ⟨r, hr, -, -, -, hlast, hat⟩ := C53_estimated_ratio _ (C53_table_of_histogram xs hpos hne bins h) bound
  obtain ⟨-, -, ⟨m, hmx, hmm, hm⟩, -, -⟩ := C35_shape xs hpos hne bins h
  have hmb := hb m hmx
  have h1 : (1 : ℚ) ≤ m := by exact_mod_cast hpos m hmx
  rw [hr]
  rcases hmb.lt_or_eq with hlt | heq
  · rw [hlast _ hm hlt]
  · rw [hat 0 (by linarith) (by rw [← heq]; exact List.mem_of_getLast? hm)]

theorem totalCount_eq {xs : List ℕ} {bins : List Bin} (h : IsCountHistogram xs bins) : totalCount bins = xs.length := by
  have h1 := h.sum_bins (fun _ => (1 : ℚ))
  have h2 : ((totalCount bins : ℕ) : ℚ)
      = (bins.map fun b => ((inBin intBounds b.lower xs).map fun _ => (1 : ℚ)).sum).sum := by
    unfold totalCount
    rw [Nat.cast_list_sum, List.map_map]
    congr 1
    apply List.map_congr_left
    intro b hb
    simp [h.count b hb]
  rw [h1] at h2
  simp only [List.map_const', List.sum_replicate, nsmul_eq_mul, mul_one] at h2
  exact_mod_cast h2

theorem IsCountHistogram.bins_ne_nil {xs : List ℕ} {bins : List Bin} (h : IsCountHistogram xs bins) (hne : xs ≠ []) :
    bins ≠ [] := by
  obtain ⟨x, hx⟩ := List.exists_mem_of_ne_nil _ hne
  obtain ⟨b, hb, -⟩ := (h.occupied _).mpr ⟨x, hx, rfl⟩
  exact List.ne_nil_of_mem hb

theorem IsCountHistogram.bin_pos {xs : List ℕ} {bins : List Bin} (h : IsCountHistogram xs bins) :
    (∀ b ∈ bins, 0 < b.count) ∧ ∀ b ∈ bins, 0 ≤ b.sum := by
  constructor
  · intro b hb
    obtain ⟨x, hx, hxl⟩ := (h.occupied b.lower).mp ⟨b, hb, rfl⟩
    rw [h.count b hb]
    exact List.length_pos_of_mem (List.mem_filter.mpr ⟨hx, by simpa using hxl⟩)
  · intro b hb
    rw [h.sum b hb]
    apply List.sum_nonneg
    intro y hy
    obtain ⟨n, -, rfl⟩ := List.mem_map.mp hy
    positivity

/-- The sizes of the partitions which the estimator averages over: rows for COUNT, privacy ids for PRIVACY_ID_COUNT. -/
def partitionSizes (metric : Metric) (rows : List (P × K × V)) : List ℕ :=
  (allPartitions rows).map (if metric = .count then rowsOfPartition rows else idsOfPartition rows)

theorem rows_of_pairs_pos (rows : List (P × K × V)) : ∀ x ∈ (allPairs rows).map (rowsOfPair rows), 1 ≤ x := by
  intro x hx
  obtain ⟨pk, hpk, rfl⟩ := List.mem_map.mp hx
  obtain ⟨r, hr, rfl⟩ := List.mem_map.mp (List.mem_dedup.mp hpk)
  exact List.length_pos_of_mem (List.mem_filter.mpr ⟨hr, by simp⟩)

theorem partitions_of_ids_pos (rows : List (P × K × V)) : ∀ x ∈ (allIds rows).map (partitionsOfId rows), 1 ≤ x := by
  intro x hx
  obtain ⟨p, hp, rfl⟩ := List.mem_map.mp hx
  obtain ⟨r, hr, rfl⟩ := List.mem_map.mp (List.mem_dedup.mp hp)
  exact List.length_pos_of_mem (List.mem_dedup.mpr (List.mem_map.mpr ⟨r, List.mem_filter.mpr ⟨hr, by simp⟩, rfl⟩))

/-- **C53.** For a nonempty dataset the estimator created from its histograms always answers.  The answer is at least
the deviation of the noise and exceeds it by at most the average partition size; it is exactly the deviation of the
noise if the bounds drop nothing. -/
theorem C53_estimate_for_dataset (O : Ops) (hO : O.Lawful) (rows : List (P × K × V)) (hne : rows ≠ [])
    (sigma : ℝ → ℝ → ℝ → ℝ) (hsigma : ∀ e d s, 0 ≤ sigma e d s) (eps : ℝ) (heps : 0 < eps) (delta : Option ℝ)
    (metric : Metric) (noise : NoiseKind) (e : Estimator)
    (he : createCountEstimator sigma (datasetHistograms O rows) eps delta metric noise = .ok e)
    (l0 linf : ℚ) (h0 : 0 ≤ l0) (hi : 0 ≤ linf) :
    ∃ x, e.estimate l0 (some linf) = .ok x ∧ e.noiseStd l0 linf ≤ x ∧
      x ≤ e.noiseStd l0 linf + ((partitionSizes metric rows).sum : ℝ) / (partitionSizes metric rows).length ∧
      ((∀ u ∈ allIds rows, (partitionsOfId rows u : ℚ) ≤ l0) →
        (metric = .count → ∀ pk ∈ allPairs rows, (rowsOfPair rows pk : ℚ) ≤ linf) → x = e.noiseStd l0 linf) := by
  have hd := C33_dataset_histograms O hO rows
  obtain ⟨r, hr⟩ := List.exists_mem_of_ne_nil _ hne
  have hne0 : (allIds rows).map (partitionsOfId rows) ≠ [] := by
    refine List.ne_nil_of_mem (List.mem_map.mpr ⟨r.1, List.mem_dedup.mpr (List.mem_map.mpr ⟨r, hr, rfl⟩), rfl⟩)
  have hnei : (allPairs rows).map (rowsOfPair rows) ≠ [] := by
    refine List.ne_nil_of_mem (List.mem_map.mpr ⟨_, List.mem_dedup.mpr (List.mem_map.mpr ⟨r, hr, rfl⟩), rfl⟩)
  have hnes : partitionSizes metric rows ≠ [] := by
    refine List.ne_nil_of_mem (List.mem_map.mpr ⟨_, List.mem_dedup.mpr (List.mem_map.mpr ⟨r, hr, rfl⟩), rfl⟩)
  have t0 := C53_table_of_histogram _ (partitions_of_ids_pos rows) hne0 _ hd.l0
  have ti := C53_table_of_histogram _ (rows_of_pairs_pos rows) hnei _ hd.linf
  obtain ⟨hm, hdl⟩ := (C53_created_iff _ _ _ _ _ _).mp ⟨e, he⟩
  have hmem : ¬ metric ∉ [Metric.count, .privacyIdCount] := not_not.mpr (by simpa using hm)
  have hp : IsCountHistogram (partitionSizes metric rows)
      (if metric = .count then (datasetHistograms O rows).partitionCount else (datasetHistograms O rows).partitionId) := by
    unfold partitionSizes
    rcases hm with rfl | rfl
    · exact hd.partitionCount
    · exact hd.partitionId
  unfold createCountEstimator mkEstimator at he
  rw [if_neg hmem] at he
  cases hbase : baseStd sigma noise eps delta with
  | error x => simp [hbase, bind, Except.bind] at he
  | ok base =>
    have hb : 0 ≤ base := by
      unfold baseStd at hbase
      cases noise <;> cases delta <;> simp at hbase
      · rw [← hbase]; positivity
      · rw [← hbase]; exact hsigma _ _ _
    simp only [hbase, bind, Except.bind] at he
    cases he
    obtain ⟨x, hx, hlo, hhi⟩ := C53_estimate_rmse metric noise base hb _ _ t0 ti _ (hp.bins_ne_nil hnes) hp.bin_pos.1
      hp.bin_pos.2 l0 linf h0 hi
    refine ⟨x, hx, hlo, ?_, ?_⟩
    · rw [totalSum_eq hp, totalCount_eq hp] at hhi
      rw [Rat.cast_natCast] at hhi
      exact hhi
    · intro b0 bi
      have g0 := getRatio_above _ (partitions_of_ids_pos rows) hne0 _ hd.l0 l0 (by
        intro y hy; obtain ⟨u, hu, rfl⟩ := List.mem_map.mp hy; exact b0 u hu)
      have hstd : 0 ≤ estimatorStd metric noise base l0 linf := by
        have h0' : (0 : ℝ) ≤ (l0 : ℝ) := by exact_mod_cast h0
        have hi' : (0 : ℝ) ≤ (linf : ℝ) := by exact_mod_cast hi
        unfold estimatorStd
        simp only
        split <;> split <;> positivity
      have hz := C53_rmse_bounds 0 (estimatorStd metric noise base l0 linf) le_rfl hstd _ (hp.bins_ne_nil hnes) hp.bin_pos.1
        hp.bin_pos.2
      have hval : x = rmseImpl 0 (estimatorStd metric noise base l0 linf)
          (if metric = .count then (datasetHistograms O rows).partitionCount
            else (datasetHistograms O rows).partitionId) := by
        unfold estimateRmse at hx
        rw [if_neg (by simp), g0] at hx
        rcases hm with rfl | rfl
        · have gi := getRatio_above _ (rows_of_pairs_pos rows) hnei _ hd.linf linf (by
            intro y hy; obtain ⟨u, hu, rfl⟩ := List.mem_map.mp hy; exact bi rfl u hu)
          simp [bind, Except.bind, gi] at hx
          simpa using hx.symm
        · simp [bind, Except.bind] at hx
          simpa using hx.symm
      rw [hval]
      refine le_antisymm ?_ hz.1
      have := hz.2
      rw [zero_mul, zero_div, add_zero] at this
      exact this

/-! ### Estimators for SUM -/

/-- **C53, gap.** Sums may be negative, and then the table of ratios is neither sorted nor within [0, 1]: for two users
with sums -10 and 5 the estimated ratio of dropped data for the bound 2 is negative, and it is 0 for sums of -10 only
although every value exceeds the bound 2. -/
theorem C53_negative_sums :
    (∃ r, getRatio (ratioDropped [⟨-10, -9, 1, -10, -10, -10⟩, ⟨5, 6, 1, 5, 5, 5⟩]) 2 = .ok r ∧ r < 0) ∧
    getRatio (ratioDropped [⟨-10, -10, 1, -10, -10, -10⟩]) 2 = .ok 0 := by
  exact ⟨⟨_, rfl, by decide +kernel⟩, by decide +kernel⟩

/-- **C53, gap.** If the sums of a nonempty dataset add up to 0, no estimator for SUM can be created. -/
theorem C53_zero_total_sum (sigma : ℝ → ℝ → ℝ → ℝ) (l0 linfSum partitionSum : List Bin) (eps : ℝ) (delta : Option ℝ)
    (noise : NoiseKind) (hne : linfSum ≠ []) (h0 : totalSum linfSum = 0) :
    createSumEstimator sigma l0 linfSum partitionSum eps delta noise = .error .zeroDivision := by
  unfold createSumEstimator sumRatioDropped
  rw [if_pos ⟨hne, h0⟩]; rfl

/-- **C53.** With positive sums an estimator for SUM is created exactly if delta is given for Gaussian noise only, and it
uses the histograms of partitions per user, of sums per user and partition, and of sums per partition. -/
theorem C53_sum_estimator (sigma : ℝ → ℝ → ℝ → ℝ) (l0 linfSum partitionSum : List Bin) (eps : ℝ) (delta : Option ℝ)
    (noise : NoiseKind) (h0 : totalSum linfSum ≠ 0) (e : Estimator) :
    createSumEstimator sigma l0 linfSum partitionSum eps delta noise = .ok e ↔
      e.metric = .sum ∧ e.noise = noise ∧ e.l0Table = ratioDropped l0 ∧ e.linfTable = ratioDropped linfSum ∧
      e.partitions = partitionSum ∧
      ((noise = .laplace ∧ delta = none ∧ e.base = Real.sqrt 2 / eps) ∨
        (noise = .gaussian ∧ ∃ d, delta = some d ∧ e.base = sigma eps d 1)) := by
  obtain ⟨b, m, n, t0, ti, ps⟩ := e
  unfold createSumEstimator sumRatioDropped mkEstimator baseStd
  rw [if_neg (fun h => h0 h.2)]
  cases noise <;> cases delta <;> simp [bind, Except.bind] <;> constructor <;>
    (rintro ⟨rfl, rfl, rfl, rfl, rfl, rfl⟩; simp)

/-- A dataset of three users and two partitions, and an estimator for it with bounds which drop nothing. -/
example (sigma : ℝ → ℝ → ℝ → ℝ) (hs : ∀ e d s, 0 ≤ sigma e d s) :
    let rows : List (ℕ × Char × Unit) := [(1, 'a', ()), (1, 'a', ()), (1, 'b', ()), (2, 'a', ()), (3, 'b', ())]
    ∃ e x, createCountEstimator sigma (datasetHistograms localOps rows) 1 none .count .laplace = .ok e ∧
      e.estimate 2 (some 2) = .ok x ∧ x = e.noiseStd 2 2 := by
  intro rows
  obtain ⟨e, he⟩ := (C53_created_iff sigma (datasetHistograms localOps rows) 1 none .count .laplace).mpr (by simp)
  obtain ⟨x, hx, -, -, h⟩ := C53_estimate_for_dataset localOps localOps_lawful rows (by decide) sigma hs 1 one_pos none
    .count .laplace e he 2 2 (by norm_num) (by norm_num)
  refine ⟨e, x, he, hx, h (by decide +kernel) (fun _ => by decide +kernel)⟩

example : totalSum [⟨-5, 0, 1, -5, -5, -5⟩, ⟨5, 6, 1, 5, 5, 5⟩] = 0 := by decide +kernel

end PDP.Histogram
