import Verif.Analysis.PerPartition
import Verif.Engine.Combiners
import Mathlib.Algebra.BigOperators.Ring.List

/-!
# Cross-partition metrics of the utility analysis (`analysis/cross_partition_combiners.py`, `analysis/metrics.py`)

Floats are reals.  A dataclass of float fields is a function from the names of its fields.
-/

set_option linter.unusedVariables false

namespace PDP.Analysis

open PDP.Engine (MergeTree)

/-! ### Model -/

/-- `metrics.SumMetrics` (`metrics.py:23-59`): one metric of one partition. -/
structure PM extends SumMetrics where
  stdNoise : ℝ

/-- `metrics.PerPartitionMetrics` (`metrics.py:68-72`); of the raw statistics only the number of rows is used. -/
structure PartitionMetrics where
  keep : ℝ
  rows : ℕ
  errors : List PM

/-- Fields of `metrics.ValueErrors` (`metrics.py:107-143`) with those of the nested `ContributionBoundingErrors`. -/
inductive Field where
  | l0Mean | l0Var | linfMin | linfMax | mean | variance | rmse | l1 | rmseDropped | l1Dropped
deriving DecidableEq

/-- Fields of `metrics.DataDropInfo` (`metrics.py:173-188`). -/
inductive DropField where
  | l0 | linf | selection
deriving DecidableEq

/-- `_sum_metrics_to_data_dropped` (`cross_partition_combiners.py:24-47`). -/
def dataDropped (m : PM) (keep : ℝ) : DropField → ℝ
  | .linf => m.clippingToMin - m.clippingToMax
  | .l0 => -m.expectedL0
  | .selection => (m.sum - -m.expectedL0 - (m.clippingToMin - m.clippingToMax)) * (1 - keep)

/-- `_sum_metrics_to_value_error` before the weight is applied (`cross_partition_combiners.py:50-90`). -/
noncomputable def valueError (m : PM) (keep : ℝ) : Field → ℝ
  | .l0Mean => m.expectedL0
  | .l0Var => m.stdL0 ^ 2
  | .linfMin => m.clippingToMin
  | .linfMax => m.clippingToMax
  | .mean => m.expectedL0 + m.clippingToMin + m.clippingToMax
  | .variance => m.stdL0 ^ 2 + m.stdNoise ^ 2
  | .rmse => Real.sqrt ((m.expectedL0 + m.clippingToMin + m.clippingToMax) ^ 2 + (m.stdL0 ^ 2 + m.stdNoise ^ 2))
  | .l1 => 0
  | .rmseDropped =>
    keep * Real.sqrt ((m.expectedL0 + m.clippingToMin + m.clippingToMax) ^ 2 + (m.stdL0 ^ 2 + m.stdNoise ^ 2)) +
      (1 - keep) * |m.sum|
  | .l1Dropped => 0

open Classical in
/-- `if weight != 1: _multiply_float_dataclasses_field(result, weight)` (`cross_partition_combiners.py:85-90`). -/
noncomputable def weighted (w : ℝ) (e : Field → ℝ) : Field → ℝ := if w ≠ 1 then fun f => e f * w else e

open Classical in
/-- `ValueErrors.to_relative` (`metrics.py:145-169`, `:97-103`): variances are divided by the square. -/
noncomputable def toRelative (e : Field → ℝ) (value : ℝ) : Field → ℝ :=
  if value = 0 then fun _ => 0
  else fun f =>
    match f with
    | .l0Var => e .l0Var / value ^ 2
    | .variance => e .variance / value ^ 2
    | f => e f / value

/-- `metrics.MetricUtility` (`metrics.py:191-216`). -/
structure MetricUtility where
  noiseStd : ℝ
  dropped : DropField → ℝ
  absolute : Field → ℝ
  relative : Field → ℝ

/-- `_sum_metrics_to_metric_utility` (`cross_partition_combiners.py:93-117`). -/
noncomputable def metricUtility (keep w : ℝ) (m : PM) : MetricUtility where
  noiseStd := m.stdNoise
  dropped := dataDropped m keep
  absolute := weighted w (valueError m keep)
  relative := toRelative (weighted w (valueError m keep)) m.sum

/-- The numeric fields of `metrics.PartitionsInfo` (`metrics.py:219-245`). -/
structure PartitionsInfo where
  dataset : ℕ
  empty : ℕ
  keptMean : ℝ
  keptVar : ℝ

/-- `_partition_metrics_public_partitions`, `_partition_metrics_private_partitions`
(`cross_partition_combiners.py:120-139`).  `kept_partitions` is `None` for public partitions, here `0`. -/
def partitionsInfo (isPublic : Bool) (p : PartitionMetrics) : PartitionsInfo :=
  if isPublic then (if p.rows = 0 then ⟨0, 1, 0, 0⟩ else ⟨1, 0, 0, 0⟩) else ⟨1, 0, p.keep, p.keep * (1 - p.keep)⟩

/-- Accumulator of `CrossPartitionCombiner` (`cross_partition_combiners.py:298-345`). -/
structure CrossAcc where
  actual : List ℝ
  info : PartitionsInfo
  errors : List MetricUtility
  weight : ℝ

/-- `CrossPartitionCombiner.create_accumulator` with `_per_partition_to_utility_report`
(`cross_partition_combiners.py:194-223`, `:318-323`): with public partitions the probability to keep is 1. -/
noncomputable def crossCreate (isPublic : Bool) (weight : PartitionMetrics → ℝ) (p : PartitionMetrics) : CrossAcc where
  actual := p.errors.map fun m => m.sum
  info := partitionsInfo isPublic p
  errors := p.errors.map (metricUtility (if isPublic then 1 else p.keep) (weight p))
  weight := weight p

/-- `_merge_metric_utility` with `_add_dataclasses_by_fields` (`cross_partition_combiners.py:142-171`, `:236-243`): all
fields are added, except the noise. -/
def MetricUtility.merge (a b : MetricUtility) : MetricUtility :=
  ⟨a.noiseStd, fun f => a.dropped f + b.dropped f, fun f => a.absolute f + b.absolute f,
    fun f => a.relative f + b.relative f⟩

/-- `merge_accumulators` (`cross_partition_combiners.py:325-332`) with `_merge_utility_reports` (`:246-257`).  The lists of
metrics have equal lengths (it is asserted). -/
def crossMerge (a b : CrossAcc) : CrossAcc where
  actual := List.zipWith (· + ·) a.actual b.actual
  info := ⟨a.info.dataset + b.info.dataset, a.info.empty + b.info.empty, a.info.keptMean + b.info.keptMean,
    a.info.keptVar + b.info.keptVar⟩
  errors := List.zipWith MetricUtility.merge a.errors b.errors
  weight := a.weight + b.weight

open Classical in
/-- `_average_utility_report` (`cross_partition_combiners.py:260-274`) on one metric. -/
noncomputable def averaged (weight actual : ℝ) (m : MetricUtility) : MetricUtility where
  noiseStd := m.noiseStd
  dropped := fun f => m.dropped f * (if actual = 0 then 1 else 1 / actual)
  absolute := fun f => m.absolute f * (if weight = 0 then 0 else 1 / weight)
  relative := fun f => m.relative f * (if weight = 0 then 0 else 1 / weight)

/-- `compute_metrics` (`cross_partition_combiners.py:334-339`). -/
noncomputable def crossMetrics (a : CrossAcc) : PartitionsInfo × List MetricUtility :=
  (a.info, List.zipWith (averaged a.weight) a.actual a.errors)

/-- `equal_weight_fn` (`cross_partition_combiners.py:284-295`). -/
def equalWeight (p : PartitionMetrics) : ℝ := p.keep

/-- `partition_size_weight_fn` (`cross_partition_combiners.py:277-281`).  Without metrics the code raises `IndexError`; this case is not
modelled (`0` here). -/
def sizeWeight (p : PartitionMetrics) : ℝ := (p.errors.map fun m => m.sum).headD 0

/-- The report for the partitions at the leaves of a merge tree. -/
noncomputable def crossReport (isPublic : Bool) (weight : PartitionMetrics → ℝ) (t : MergeTree PartitionMetrics) :
    PartitionsInfo × List MetricUtility :=
  crossMetrics ((t.map (crossCreate isPublic weight)).eval crossMerge)

/-! ### Specification -/

open Classical in
/-- Weighted mean of `x` over a list; `0` when the weights add up to zero. -/
noncomputable def weightedMean {A : Type} (w x : A → ℝ) (l : List A) : ℝ :=
  if (l.map w).sum = 0 then 0 else (l.map fun a => w a * x a).sum / (l.map w).sum

/-- An average of errors divided by the values, `0` for partitions where the value is `0`; variances are divided by the
square of the value. -/
noncomputable def relativeError (e : Field → ℝ) (value : ℝ) (f : Field) : ℝ :=
  e f / value ^ (if f = .l0Var ∨ f = .variance then 2 else 1)

/-! ### Lemmas -/

theorem weighted_apply (w : ℝ) (e : Field → ℝ) (f : Field) : weighted w e f = w * e f := by
  unfold weighted
  split_ifs with h
  · ring
  · push Not at h; rw [h, one_mul]

theorem toRelative_apply (e : Field → ℝ) (value : ℝ) (f : Field) : toRelative e value f = relativeError e value f := by
  unfold toRelative relativeError
  by_cases h : value = 0
  · rw [if_pos h]; subst h; split_ifs <;> simp
  · rw [if_neg h]
    cases f <;> simp

/-- The accumulator of a tree in which every partition has `k` metrics. -/
theorem eval_spec (isPublic : Bool) (weight : PartitionMetrics → ℝ) (k : ℕ) : ∀ (t : MergeTree PartitionMetrics),
    (∀ p ∈ t.leaves, p.errors.length = k) →
    let a := (t.map (crossCreate isPublic weight)).eval crossMerge
    let part := fun j (g : PM → PartitionMetrics → ℝ) => (t.leaves.map fun p => (p.errors[j]?.elim 0 fun m => g m p)).sum
    let kp : PartitionMetrics → ℝ := fun p => if isPublic then 1 else p.keep
    a.weight = (t.leaves.map weight).sum ∧ a.actual.length = k ∧ a.errors.length = k ∧
    (∀ j (h : j < a.actual.length), a.actual[j] = part j fun m _ => m.sum) ∧
    (∀ j (h : j < a.errors.length), (∀ f, a.errors[j].dropped f = part j fun m p => dataDropped m (kp p) f) ∧
      (∀ f, a.errors[j].absolute f = part j fun m p => weight p * valueError m (kp p) f) ∧
      (∀ f, a.errors[j].relative f = part j fun m p => weight p * relativeError (valueError m (kp p)) m.sum f)) ∧
    a.info = ⟨(t.leaves.map fun p => (partitionsInfo isPublic p).dataset).sum,
      (t.leaves.map fun p => (partitionsInfo isPublic p).empty).sum,
      (t.leaves.map fun p => (partitionsInfo isPublic p).keptMean).sum,
      (t.leaves.map fun p => (partitionsInfo isPublic p).keptVar).sum⟩
  | .leaf p, hk => by
    intro a part kp
    have hkp := hk p (by simp [MergeTree.leaves])
    refine ⟨by simp [a, MergeTree.map, MergeTree.eval, crossCreate, MergeTree.leaves],
      by simp [a, MergeTree.map, MergeTree.eval, crossCreate, hkp],
      by simp [a, MergeTree.map, MergeTree.eval, crossCreate, hkp], ?_, ?_,
      by simp [a, MergeTree.map, MergeTree.eval, crossCreate, MergeTree.leaves]⟩
    · intro j h
      have hj : j < p.errors.length := by simpa [a, MergeTree.map, MergeTree.eval, crossCreate] using h
      simp [a, part, MergeTree.map, MergeTree.eval, crossCreate, MergeTree.leaves, hj]
    · intro j h
      have hj : j < p.errors.length := by simpa [a, MergeTree.map, MergeTree.eval, crossCreate] using h
      refine ⟨fun f => ?_, fun f => ?_, fun f => ?_⟩
      · simp [a, part, kp, MergeTree.map, MergeTree.eval, crossCreate, MergeTree.leaves, hj, metricUtility]
      · simp [a, part, kp, MergeTree.map, MergeTree.eval, crossCreate, MergeTree.leaves, hj, metricUtility, weighted_apply]
      · simp [a, part, kp, MergeTree.map, MergeTree.eval, crossCreate, MergeTree.leaves, hj, metricUtility,
          toRelative_apply, relativeError, weighted_apply, mul_div_assoc]
  | .node l r, hk => by
    intro a part kp
    obtain ⟨w1, la1, le1, ha1, he1, hi1⟩ := eval_spec isPublic weight k l fun p hp => hk p (by simp [MergeTree.leaves, hp])
    obtain ⟨w2, la2, le2, ha2, he2, hi2⟩ := eval_spec isPublic weight k r fun p hp => hk p (by simp [MergeTree.leaves, hp])
    set a1 := (l.map (crossCreate isPublic weight)).eval crossMerge
    set a2 := (r.map (crossCreate isPublic weight)).eval crossMerge
    have haeq : a = crossMerge a1 a2 := rfl
    refine ⟨?_, ?_, ?_, ?_, ?_, ?_⟩
    · rw [haeq]; simp [crossMerge, w1, w2, MergeTree.leaves]
    · rw [haeq]; simp [crossMerge, la1, la2]
    · rw [haeq]; simp [crossMerge, le1, le2]
    · intro j h
      have hj : j < k := by rw [haeq] at h; simpa [crossMerge, la1, la2] using h
      simp only [haeq, crossMerge, List.getElem_zipWith]
      rw [ha1 j (by omega), ha2 j (by omega)]
      simp [part, MergeTree.leaves]
    · intro j h
      have hj : j < k := by rw [haeq] at h; simpa [crossMerge, le1, le2] using h
      obtain ⟨x1, x2, x3⟩ := he1 j (by omega)
      obtain ⟨y1, y2, y3⟩ := he2 j (by omega)
      refine ⟨fun f => ?_, fun f => ?_, fun f => ?_⟩
      · simp only [haeq, crossMerge, List.getElem_zipWith, MetricUtility.merge]
        rw [x1, y1]; simp [part, kp, MergeTree.leaves]
      · simp only [haeq, crossMerge, List.getElem_zipWith, MetricUtility.merge]
        rw [x2, y2]; simp [part, kp, MergeTree.leaves]
      · simp only [haeq, crossMerge, List.getElem_zipWith, MetricUtility.merge]
        rw [x3, y3]; simp [part, kp, MergeTree.leaves]
    · rw [haeq]; simp [crossMerge, hi1, hi2, MergeTree.leaves]

theorem map_elim {metric : PartitionMetrics → PM} {j : ℕ} {l : List PartitionMetrics}
    (hm : ∀ p ∈ l, p.errors[j]? = some (metric p)) (g : PM → PartitionMetrics → ℝ) :
    (l.map fun p => (p.errors[j]?.elim 0 fun m => g m p)) = l.map fun p => g (metric p) p :=
  List.map_congr_left fun p hp => by rw [hm p hp]; rfl

/-! ### C45 -/

/-- **C45** (averages). Every field of the absolute and of the relative error of the `j`-th metric in the report is the mean
of this field over the partitions, weighted by the weight function (0 when the weights add up to 0); the dropped data is the
total of the partitions divided by the total of the values.  For every merge tree. -/
theorem C45_average (isPublic : Bool) (weight : PartitionMetrics → ℝ) (t : MergeTree PartitionMetrics) (k j : ℕ)
    (hk : ∀ p ∈ t.leaves, p.errors.length = k) (metric : PartitionMetrics → PM)
    (hm : ∀ p ∈ t.leaves, p.errors[j]? = some (metric p)) :
    let keep : PartitionMetrics → ℝ := fun p => if isPublic then 1 else p.keep
    let total := (t.leaves.map fun p => (metric p).sum).sum
    ∃ u, (crossReport isPublic weight t).2[j]? = some u ∧
      (∀ f, u.absolute f = weightedMean weight (fun p => valueError (metric p) (keep p) f) t.leaves) ∧
      (∀ f, u.relative f =
        weightedMean weight (fun p => relativeError (valueError (metric p) (keep p)) (metric p).sum f) t.leaves) ∧
      (∀ f, (total ≠ 0 → u.dropped f = (t.leaves.map fun p => dataDropped (metric p) (keep p) f).sum / total) ∧
        (total = 0 → u.dropped f = (t.leaves.map fun p => dataDropped (metric p) (keep p) f).sum)) := by
  intro keep total
  have hj : j < k := by
    have hne : t.leaves ≠ [] := by
      cases t with
      | leaf p => simp [MergeTree.leaves]
      | node l r =>
        have : ∀ t : MergeTree PartitionMetrics, t.leaves ≠ [] := by
          intro t
          induction t with
          | leaf p => simp [MergeTree.leaves]
          | node l r ih _ => simp [MergeTree.leaves, ih]
        exact this _
    obtain ⟨p, ps, hps⟩ := List.exists_cons_of_ne_nil hne
    have hp : p ∈ t.leaves := by rw [hps]; simp
    have := hm p hp
    rw [List.getElem?_eq_some_iff] at this
    obtain ⟨h, _⟩ := this
    rw [← hk p hp]; exact h
  obtain ⟨hw, la, le, ha, he, _⟩ := eval_spec isPublic weight k t hk
  unfold crossReport crossMetrics
  set a := (t.map (crossCreate isPublic weight)).eval crossMerge
  have hlen : j < (List.zipWith (averaged a.weight) a.actual a.errors).length := by
    rw [List.length_zipWith, la, le]; omega
  refine ⟨_, List.getElem?_eq_getElem hlen, ?_⟩
  rw [List.getElem_zipWith]
  have hact := ha j (by omega)
  obtain ⟨h1, h2, h3⟩ := he j (by omega)
  simp only [map_elim hm] at hact h1 h2 h3
  refine ⟨fun f => ?_, fun f => ?_, fun f => ⟨fun h => ?_, fun h => ?_⟩⟩
  · simp only [averaged, weightedMean]
    rw [h2, hw]
    by_cases h0 : (t.leaves.map weight).sum = 0
    · rw [if_pos h0, if_pos h0, mul_zero]
    · rw [if_neg h0, if_neg h0, mul_one_div]
  · simp only [averaged, weightedMean]
    rw [h3, hw]
    by_cases h0 : (t.leaves.map weight).sum = 0
    · rw [if_pos h0, if_pos h0, mul_zero]
    · rw [if_neg h0, if_neg h0, mul_one_div]
  · simp only [averaged]
    rw [h1, hact, if_neg h, mul_one_div]
  · simp only [averaged]
    rw [h1, hact, if_pos h, mul_one]

/-- **C45** (partition counts): for public partitions the report counts the partitions with and without data, and has no number of kept
partitions (`None` in the code, 0 here); for private ones it has the number of partitions, the mean and the variance of the number of those
kept, and no empty partitions (again `None`). -/
theorem C45_partitions (isPublic : Bool) (weight : PartitionMetrics → ℝ) (t : MergeTree PartitionMetrics) (k : ℕ)
    (hk : ∀ p ∈ t.leaves, p.errors.length = k) :
    let info := (crossReport isPublic weight t).1
    (isPublic = true → info.dataset = t.leaves.countP (fun p => p.rows ≠ 0) ∧
      info.empty = t.leaves.countP (fun p => p.rows = 0) ∧ info.keptMean = 0 ∧ info.keptVar = 0) ∧
    (isPublic = false → info.dataset = t.leaves.length ∧ info.empty = 0 ∧ info.keptMean = (t.leaves.map fun p => p.keep).sum ∧
      info.keptVar = (t.leaves.map fun p => p.keep * (1 - p.keep)).sum) := by
  intro info
  obtain ⟨_, _, _, _, _, hi⟩ := eval_spec isPublic weight k t hk
  have hinfo : info = ((t.map (crossCreate isPublic weight)).eval crossMerge).info := rfl
  rw [hinfo, hi]
  constructor
  · rintro rfl
    refine ⟨?_, ?_, ?_, ?_⟩
    · dsimp only
      induction t.leaves with
      | nil => rfl
      | cons p ps ih =>
        rw [List.map_cons, List.sum_cons, ih, List.countP_cons]
        by_cases h : p.rows = 0 <;> simp [partitionsInfo, h, add_comm]
    · dsimp only
      induction t.leaves with
      | nil => rfl
      | cons p ps ih =>
        rw [List.map_cons, List.sum_cons, ih, List.countP_cons]
        by_cases h : p.rows = 0 <;> simp [partitionsInfo, h, add_comm]
    · refine List.sum_eq_zero fun x hx => ?_
      obtain ⟨p, _, rfl⟩ := List.mem_map.1 hx
      by_cases h : p.rows = 0 <;> simp [partitionsInfo, h]
    · refine List.sum_eq_zero fun x hx => ?_
      obtain ⟨p, _, rfl⟩ := List.mem_map.1 hx
      by_cases h : p.rows = 0 <;> simp [partitionsInfo, h]
  · rintro rfl
    refine ⟨?_, ?_, ?_, ?_⟩
    · simp [partitionsInfo]
    · simp [partitionsInfo]
    · simp [partitionsInfo]
    · simp [partitionsInfo]

/-- **C45** (what is averaged). For the metrics of a partition computed from its users, the reported bias is the
expectation of the bounded value minus the true value, the variance is that of bounding plus that of the noise, and the
squared rmse is the expected squared distance to the true value plus the variance of the noise. -/
theorem C45_errors {lo hi : ℚ} (h : lo ≤ hi) (l0 : ℕ) (users : List UserRow) (noise keep : ℝ) :
    let m : PM := ⟨(sumAnalysis lo hi l0 users).metrics, noise⟩
    let X := boundedValue lo hi (users.map UserRow.sum)
    let E := fun g => expect l0 (users.map UserRow.nPartitions) g
    let value := (users.map UserRow.sum).sum
    valueError m keep .mean = ((E X - value : ℚ) : ℝ) ∧
    valueError m keep .variance = ((E fun ss => (X ss - E X) ^ 2 : ℚ) : ℝ) + noise ^ 2 ∧
    valueError m keep .rmse ^ 2 = ((E fun ss => (X ss - value) ^ 2 : ℚ) : ℝ) + noise ^ 2 ∧
    valueError m keep .rmseDropped = keep * valueError m keep .rmse + (1 - keep) * |(value : ℝ)| := by
  intro m X E value
  obtain ⟨h1, h2, h3⟩ := C43_sum h l0 users
  have hsum : m.sum = (value : ℝ) := h1
  have hmean : m.expectedL0 + m.clippingToMin + m.clippingToMax = ((E X - value : ℚ) : ℝ) := by
    push_cast
    rw [← hsum, ← h2]
    ring
  have hvar : m.stdL0 ^ 2 = ((E fun ss => (X ss - E X) ^ 2 : ℚ) : ℝ) := h3
  have hsq : (E fun ss => (X ss - value) ^ 2) = (E fun ss => (X ss - E X) ^ 2) + (E X - value) ^ 2 := by
    have hm := boundedValue_moments h l0 (users.map fun u => (u.sum, u.nPartitions))
    have e1 : (users.map fun u => (u.sum, u.nPartitions)).map Prod.fst = users.map UserRow.sum := by
      simp [Function.comp_def]
    have e2 : (users.map fun u => (u.sum, u.nPartitions)).map Prod.snd = users.map UserRow.nPartitions := by
      simp [Function.comp_def]
    have key : ∀ c : ℚ, (E fun ss => (c + X ss) ^ 2) =
        ((users.map fun u => clamp lo hi u.sum ^ 2 * probKeep l0 u.nPartitions * (1 - probKeep l0 u.nPartitions))).sum +
        (c + (users.map fun u => clamp lo hi u.sum * probKeep l0 u.nPartitions).sum) ^ 2 := by
      intro c
      have := expectation_sq l0 (users.map fun u => (clamp lo hi u.sum, u.nPartitions)) c
      simpa [E, X, boundedValue, Function.comp_def] using this
    have kmean : E X = (users.map fun u => clamp lo hi u.sum * probKeep l0 u.nPartitions).sum := by
      have := expectation_keptSum l0 (users.map fun u => (clamp lo hi u.sum, u.nPartitions)) 0
      have hX : X = fun ss => keptSum ((users.map fun u => clamp lo hi u.sum)) ss := by
        funext ss; simp [X, boundedValue, Function.comp_def]
      rw [hX]
      simpa [E, Function.comp_def] using this
    have k1 := key (-value)
    have k2 := key (-E X)
    rw [← kmean] at k1 k2
    rw [show (fun ss => (X ss - value) ^ 2) = fun ss => (-value + X ss) ^ 2 from by funext ss; ring, k1,
      show (fun ss => (X ss - E X) ^ 2) = fun ss => (-E X + X ss) ^ 2 from by funext ss; ring, k2]
    ring
  refine ⟨?_, ?_, ?_, ?_⟩
  · simpa [valueError] using hmean
  · simp only [valueError]; rw [hvar]
  · simp only [valueError]
    rw [Real.sq_sqrt (by positivity), hmean, hvar, hsq]
    push_cast
    ring
  · simp only [valueError]; rw [hsum]

/-- C45: the parts of the error.  The errors by clipping from below, by clipping from above and by bounding the partitions of the
users are reported under their own names, with the variance of the last. -/
theorem C45_error_parts {lo hi : ℚ} (h : lo ≤ hi) (l0 : ℕ) (users : List UserRow) (noise keep : ℝ) :
    let m : PM := ⟨(sumAnalysis lo hi l0 users).metrics, noise⟩
    let X := boundedValue lo hi (users.map UserRow.sum)
    let E := fun g => expect l0 (users.map UserRow.nPartitions) g
    valueError m keep .linfMin = (((users.map fun u => max (lo - u.sum) 0).sum : ℚ) : ℝ) ∧
    valueError m keep .linfMax = (((users.map fun u => min (hi - u.sum) 0).sum : ℚ) : ℝ) ∧
    valueError m keep .l0Mean = ((E X - (users.map fun u => max lo (min hi u.sum)).sum : ℚ) : ℝ) ∧
    valueError m keep .l0Var = ((E fun ss => (X ss - E X) ^ 2 : ℚ) : ℝ) := by
  intro m X E
  obtain ⟨h1, h2, h3⟩ := C43_sum_parts h l0 users
  exact ⟨h1, h2, h3, (C43_sum h l0 users).2.2⟩

/-- C45: the L1 errors are never computed: every report has 0 for them. -/
theorem C45_l1_is_zero (isPublic : Bool) (weight : PartitionMetrics → ℝ) (t : MergeTree PartitionMetrics) (k j : ℕ)
    (hk : ∀ p ∈ t.leaves, p.errors.length = k) (hj : j < k) :
    ∃ u, (crossReport isPublic weight t).2[j]? = some u ∧ u.absolute .l1 = 0 ∧ u.absolute .l1Dropped = 0 ∧
      u.relative .l1 = 0 ∧ u.relative .l1Dropped = 0 := by
  obtain ⟨u, hu, ha, hr, -⟩ := C45_average isPublic weight t k j hk (fun p => p.errors.getD j ⟨⟨0, 0, 0, 0, 0⟩, 0⟩) (by
    intro p hp
    rw [List.getD_eq_getElem?_getD, List.getElem?_eq_getElem (by rw [hk p hp]; exact hj)]
    rfl)
  have hz : ∀ (l : List PartitionMetrics), weightedMean weight (fun _ => 0) l = 0 := by
    intro l
    simp [weightedMean]
  refine ⟨u, hu, ?_, ?_, ?_, ?_⟩
  · rw [ha]; exact hz _
  · rw [ha]; exact hz _
  · rw [hr]; simp only [relativeError, valueError, zero_div]; exact hz _
  · rw [hr]; simp only [relativeError, valueError, zero_div]; exact hz _

/-- **C45** (dropped data). What is reported as dropped (by bounding and by partition selection), plus what is expected to
survive, is the value plus twice the survived error of clipping to the minimum … -/
theorem C45_accounting (m : PM) (keep : ℝ) :
    dataDropped m keep .l0 + dataDropped m keep .linf + dataDropped m keep .selection +
      keep * (m.sum + m.clippingToMin + m.clippingToMax + m.expectedL0) = m.sum + 2 * (keep * m.clippingToMin) := by
  simp only [dataDropped]; ring

/-- … so it adds up to the value exactly when no value is clipped from below or the partition is never kept. -/
theorem C45_accounting_iff (m : PM) (keep : ℝ) :
    dataDropped m keep .l0 + dataDropped m keep .linf + dataDropped m keep .selection +
      keep * (m.sum + m.clippingToMin + m.clippingToMax + m.expectedL0) = m.sum ↔ keep = 0 ∨ m.clippingToMin = 0 := by
  rw [C45_accounting, ← mul_eq_zero]
  constructor
  · intro h; linarith
  · intro h; rw [h]; ring

/-- C45: COUNT and PRIVACY_ID_COUNT are never clipped from below, so their accounting is exact. -/
theorem C45_accounting_count (linf l0 : ℕ) (users : List UserRow) (noise keep : ℝ) :
    let m : PM := ⟨(countAnalysis linf l0 users).metrics, noise⟩
    let X : List (Finset ℕ) → ℚ := keptSum (users.map fun u => ((min u.count linf : ℕ) : ℚ))
    dataDropped m keep .l0 + dataDropped m keep .linf + dataDropped m keep .selection +
      keep * ((expect l0 (users.map UserRow.nPartitions) X : ℚ) : ℝ) = ((users.map UserRow.count).sum : ℕ) := by
  intro m X
  obtain ⟨h1, h2, h3, _⟩ := C43_count linf l0 users
  have := C45_accounting m keep
  have h2' : m.clippingToMin = 0 := h2
  have h1' : m.sum = (((users.map UserRow.count).sum : ℕ) : ℝ) := h1
  have h3' : m.sum + m.clippingToMax + m.expectedL0 = ((expect l0 (users.map UserRow.nPartitions) X : ℚ) : ℝ) := h3
  simp only [h2', mul_zero, add_zero] at this
  rw [h3', h1'] at this
  exact this

/-- C45: when a value is clipped from below the accounting is wrong: one user with value -2 clipped to 0 in a public
partition, nothing survives, and 2 is reported as dropped from a total of -2. -/
theorem C45_accounting_wrong :
    let m : PM := ⟨(sumAnalysis 0 4 1 [⟨1, -2, 1⟩]).metrics, 1⟩
    dataDropped m 1 .linf = 2 ∧ m.sum = -2 ∧
    dataDropped m 1 .l0 + dataDropped m 1 .linf + dataDropped m 1 .selection +
      1 * (m.sum + m.clippingToMin + m.clippingToMax + m.expectedL0) ≠ m.sum := by
  intro m
  have hacc : sumAnalysis 0 4 1 [⟨1, -2, 1⟩] = ⟨-2, 2, 0, 0, 0⟩ := by decide +kernel
  have hm : m.sum = -2 ∧ m.clippingToMin = 2 ∧ m.clippingToMax = 0 := by
    simp only [m, hacc, SumAcc.metrics]; norm_num
  obtain ⟨h1, h2, h3⟩ := hm
  refine ⟨by simp only [dataDropped, h2, h3]; norm_num, h1, ?_⟩
  rw [Ne, C45_accounting_iff, h2]
  norm_num

/-- C45: for a partition with a negative value the relative root mean square error is reported as a negative number. -/
theorem C45_relative_rmse_sign (m : PM) (keep w : ℝ) (hw : 0 < w) (hs : m.sum < 0) (hn : m.stdNoise ≠ 0) :
    (metricUtility keep w m).relative .rmse < 0 := by
  simp only [metricUtility, toRelative_apply, relativeError, weighted_apply]
  have hpos : 0 < valueError m keep .rmse := by
    simp only [valueError]
    apply Real.sqrt_pos.2
    have : 0 < m.stdNoise ^ 2 := by positivity
    positivity
  simp
  exact div_neg_of_pos_of_neg (mul_pos hw hpos) hs

/-- C45: with the weight by size a partition counts in proportion to the (not private) value of its first metric. -/
theorem C45_size_weight (isPublic : Bool) (t : MergeTree PartitionMetrics) (k j : ℕ)
    (hk : ∀ p ∈ t.leaves, p.errors.length = k) (first metric : PartitionMetrics → PM)
    (h0 : ∀ p ∈ t.leaves, p.errors[0]? = some (first p)) (hm : ∀ p ∈ t.leaves, p.errors[j]? = some (metric p)) :
    let keep : PartitionMetrics → ℝ := fun p => if isPublic then 1 else p.keep
    let size := (t.leaves.map fun p => (first p).sum).sum
    ∃ u, (crossReport isPublic sizeWeight t).2[j]? = some u ∧
      (size ≠ 0 → ∀ f, u.absolute f = (t.leaves.map fun p => (first p).sum * valueError (metric p) (keep p) f).sum / size) ∧
      (size = 0 → ∀ f, u.absolute f = 0) := by
  intro keep size
  obtain ⟨u, hu, ha, -, -⟩ := C45_average isPublic sizeWeight t k j hk metric hm
  have hw : ∀ p ∈ t.leaves, sizeWeight p = (first p).sum := by
    intro p hp
    have := h0 p hp
    unfold sizeWeight
    cases he : p.errors with
    | nil => rw [he] at this; simp at this
    | cons a l => rw [he] at this; simp at this; simp [this]
  have h1 : (t.leaves.map sizeWeight).sum = size := congrArg List.sum (List.map_congr_left hw)
  refine ⟨u, hu, fun hs f => ?_, fun hs f => ?_⟩
  · rw [ha f, weightedMean, h1, if_neg hs]
    congr 2
    exact List.map_congr_left fun p hp => by rw [hw p hp]
  · rw [ha f, weightedMean, h1, if_pos hs]

/-- Two public partitions with one metric each: the hypotheses of `C45_average` hold. -/
example : ∀ p ∈ (MergeTree.node (.leaf (⟨1, 3, [⟨⟨5, 0, -1, -2, 1⟩, 2⟩]⟩ : PartitionMetrics))
      (.leaf ⟨1, 0, [⟨⟨0, 0, 0, 0, 0⟩, 2⟩]⟩)).leaves,
    p.errors.length = 1 ∧ p.errors[0]? = some (p.errors.headD ⟨⟨0, 0, 0, 0, 0⟩, 0⟩) := by
  intro p hp
  simp [MergeTree.leaves] at hp
  rcases hp with rfl | rfl <;> simp

/-- … and those of `C45_size_weight` with size `5`. -/
example : ((MergeTree.node (.leaf (⟨1, 3, [⟨⟨5, 0, -1, -2, 1⟩, 2⟩]⟩ : PartitionMetrics))
      (.leaf ⟨1, 0, [⟨⟨0, 0, 0, 0, 0⟩, 2⟩]⟩)).leaves.map fun p => (p.errors.headD ⟨⟨0, 0, 0, 0, 0⟩, 0⟩).sum).sum ≠ 0 := by
  simp [MergeTree.leaves]

end PDP.Analysis
