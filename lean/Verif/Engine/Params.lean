import Mathlib.Data.Rat.Defs
import Mathlib.Analysis.Real.Sqrt

/-!
# Aggregation parameters and sensitivities

Model of the typed part of `pipeline_dp/aggregate_params.py` and of the sensitivity functions of
`pipeline_dp/dp_computations.py`.  Python floats are exact numbers here: rationals for data and
parameters, reals where a square root is taken.
-/

namespace PDP.Engine

/-- Python exceptions raised by the modelled functions. -/
inductive Err where
  | valueError | typeError | notImplemented | zeroDivision | keyError
  deriving DecidableEq, Repr

/-- `aggregate_params.py:75-83` `NoiseKind`. -/
inductive NoiseKind where
  | laplace | gaussian
  deriving DecidableEq, Repr

/-- `aggregate_params.py:129-133` `NormKind`. -/
inductive NormKind where
  | linf | l0 | l1 | l2
  deriving DecidableEq, Repr

/-- `aggregate_params.py:28-58` `Metric`/`Metrics`.  Metrics with other names (which the constructor of
`Metric` does not forbid) are not modelled. -/
inductive Metric where
  | count | privacyIdCount | sum | mean | variance | vectorSum
  | percentile (p : ℚ)
  deriving DecidableEq, Repr

/-- `aggregate_params.py:56-58` `is_percentile`, returning the parameter. -/
def Metric.percentile? : Metric → Option ℚ
  | .percentile p => some p
  | _ => none

/-- `aggregate_params.py:86-89` `PartitionSelectionStrategy`. -/
inductive Strategy where
  | truncatedGeometric | laplaceThresholding | gaussianThresholding
  deriving DecidableEq, Repr

/-- `aggregate_params.py:243-262`, the fields of `AggregateParams` after construction.  `none` is
Python's `None`; numbers are finite and integers are integers (what `__post_init__` checks is modelled
separately).  `custom_combiners` is not modelled. -/
structure Params where
  metrics : List Metric
  noiseKind : NoiseKind := .laplace
  maxPartitions : Option ℕ := none
  maxPerPartition : Option ℕ := none
  maxContributions : Option ℕ := none
  budgetWeight : ℚ := 1
  minValue : Option ℚ := none
  maxValue : Option ℚ := none
  minSum : Option ℚ := none
  maxSum : Option ℚ := none
  vectorNormKind : Option NormKind := none
  vectorMaxNorm : Option ℚ := none
  vectorSize : Option ℕ := none
  boundsEnforced : Bool := false
  publicFiltered : Bool := false
  strategy : Strategy := .truncatedGeometric
  preThreshold : Option ℕ := none
  postThresholding : Bool := false
  performCross : Bool := true

/-- `aggregate_params.py:272-274` `bounds_per_contribution_are_set`. -/
def Params.valueBoundsSet (p : Params) : Bool := p.minValue.isSome && p.maxValue.isSome

/-- `aggregate_params.py:276-279` `bounds_per_partition_are_set`. -/
def Params.sumBoundsSet (p : Params) : Bool := p.minSum.isSome && p.maxSum.isSome

/-! ### Sensitivities -/

/-- `dp_computations.py:578-584` fields of `Sensitivities`. -/
structure Sens where
  l0 : Option ℝ
  linf : Option ℝ
  l1 : Option ℝ
  l2 : Option ℝ

/-- `dp_computations.py:78-89`. -/
def l1Sens (l0 linf : ℝ) : ℝ := l0 * linf

/-- `dp_computations.py:92-103`. -/
noncomputable def l2Sens (l0 linf : ℝ) : ℝ := Real.sqrt l0 * linf

open Classical in
/-- `dp_computations.py:588-590` `check_is_positive`. -/
noncomputable def positiveOrNone (x : Option ℝ) : Bool :=
  match x with
  | none => true
  | some v => decide (0 < v)

open Classical in
/-- `dp_computations.py:586-618` `Sensitivities.__post_init__`. -/
noncomputable def mkSens (l0 linf l1 l2 : Option ℝ) : Except Err Sens :=
  if positiveOrNone l0 && positiveOrNone linf && positiveOrNone l1 && positiveOrNone l2 then
    match l0, linf with
    | none, none => .ok ⟨none, none, l1, l2⟩
    | some _, none => .error .valueError
    | none, some _ => .error .valueError
    | some a, some b =>
      match l1 with
      | none =>
        match l2 with
        | none => .ok ⟨some a, some b, some (l1Sens a b), some (l2Sens a b)⟩
        | some y =>
          if |l2Sens a b - y| > 1e-12 then .error .valueError
          else .ok ⟨some a, some b, some (l1Sens a b), some y⟩
      | some x =>
        if |l1Sens a b - x| > 1e-12 then .error .valueError
        else
          match l2 with
          | none => .ok ⟨some a, some b, some x, some (l2Sens a b)⟩
          | some y =>
            if |l2Sens a b - y| > 1e-12 then .error .valueError
            else .ok ⟨some a, some b, some x, some y⟩
  else .error .valueError

/-- A Python number or `None` used as a number. -/
def num (x : Option ℚ) : Except Err ℚ :=
  match x with
  | none => .error .typeError
  | some v => .ok v

def natNum (x : Option ℕ) : Except Err ℚ :=
  match x with
  | none => .error .typeError
  | some v => .ok v

/-- `dp_computations.py:718-724` `compute_sensitivities_for_count`. -/
noncomputable def sensCount (p : Params) : Except Err Sens :=
  match p.maxContributions with
  | some m => mkSens none none (some m) (some m)
  | none => mkSens (p.maxPartitions.map (↑)) (p.maxPerPartition.map (↑)) none none

/-- `dp_computations.py:727-732` `compute_sensitivities_for_privacy_id_count`. -/
noncomputable def sensPrivacyIdCount (p : Params) : Except Err Sens :=
  match p.maxContributions with
  | some m => mkSens none none (some m) (some (Real.sqrt m))
  | none => mkSens (p.maxPartitions.map (↑)) (some 1) none none

/-- `dp_computations.py:735-748` `compute_sensitivities_for_sum`. -/
noncomputable def sensSum (p : Params) : Except Err Sens := do
  let l0 : Option ℝ := p.maxPartitions.map (↑)
  if p.valueBoundsSet then
    let lo ← num p.minValue
    let hi ← num p.maxValue
    let maxAbs := max |lo| |hi|
    if p.maxContributions.getD 0 ≠ 0 then
      let m ← natNum p.maxContributions
      mkSens none none (some ((maxAbs * m : ℚ) : ℝ)) (some ((maxAbs * m : ℚ) : ℝ))
    else
      let m ← natNum p.maxPerPartition
      mkSens l0 (some ((maxAbs * m : ℚ) : ℝ)) none none
  else
    let lo ← num p.minSum
    let hi ← num p.maxSum
    mkSens l0 (some ((max |lo| |hi| : ℚ) : ℝ)) none none

/-- `dp_computations.py:762-771` `compute_sensitivities_for_normalized_sum`. -/
noncomputable def sensNormalizedSum (p : Params) : Except Err Sens := do
  let hi ← num p.maxValue
  let lo ← num p.minValue
  let maxAbs := (hi - lo) / 2
  if p.maxContributions.getD 0 ≠ 0 then
    let m ← natNum p.maxContributions
    mkSens none none (some ((maxAbs * m : ℚ) : ℝ)) (some ((maxAbs * m : ℚ) : ℝ))
  else
    let m ← natNum p.maxPerPartition
    mkSens (p.maxPartitions.map (↑)) (some ((maxAbs * m : ℚ) : ℝ)) none none

/-- `dp_computations.py:751-759` `compute_sensitivities`. -/
noncomputable def computeSensitivities (m : Metric) (p : Params) : Except Err Sens :=
  if m = .count then sensCount p
  else if m = .privacyIdCount then sensPrivacyIdCount p
  else if m = .sum then sensSum p
  else .error .valueError

/-! ### Clipping -/

/-- `np.clip` of a number: `minimum(maximum(x, lo), hi)`. -/
def clip (lo hi x : ℚ) : ℚ := min (max x lo) hi

/-- `dp_computations.py:71-75` `compute_middle`. -/
def middle (lo hi : ℚ) : ℚ := lo + (hi - lo) / 2

/-- `dp_computations.py:63-68` `compute_squares_interval`. -/
def squaresInterval (lo hi : ℚ) : ℚ × ℚ :=
  if lo < 0 ∧ 0 < hi then (0, max (lo ^ 2) (hi ^ 2)) else (lo ^ 2, hi ^ 2)

/-! ### Variance -/

/-- The sensitivities to which `_add_random_noise(value, eps, delta, l0, linf, kind)` calibrates its
noise (`dp_computations.py:154-183`): L1 for Laplace, L2 for Gaussian. -/
noncomputable def randomNoiseSens (l0 linf : ℝ) : Sens :=
  ⟨some l0, some linf, some (l1Sens l0 linf), some (l2Sens l0 linf)⟩

/-- `dp_computations.py:291-296`: the Linf sensitivity that `_compute_mean_for_normalized_sum` uses for a
sum of values from `[lo, hi]`. -/
def meanLinf (lo hi : ℚ) (perPartition : ℕ) : ℚ := perPartition * |middle lo hi - lo|

/-- `dp_computations.py:306-358` `compute_dp_var`: noise of the count. -/
noncomputable def varCountSens (l0 perPartition : ℕ) : Sens := randomNoiseSens l0 perPartition

/-- `dp_computations.py:306-358` `compute_dp_var`: noise of the normalised sum. -/
noncomputable def varSumSens (lo hi : ℚ) (l0 perPartition : ℕ) : Sens :=
  randomNoiseSens l0 (meanLinf lo hi perPartition : ℚ)

/-- `dp_computations.py:306-358` `compute_dp_var`: noise of the normalised sum of squares. -/
noncomputable def varSquaresSens (lo hi : ℚ) (l0 perPartition : ℕ) : Sens :=
  randomNoiseSens l0 (meanLinf (squaresInterval lo hi).1 (squaresInterval lo hi).2 perPartition : ℚ)

/-! ### Vector sum -/

/-- `combiners.py:164-173` and `dp_computations.py:218-229`: the sensitivities to which the noise of each
coordinate of VECTOR_SUM is calibrated. -/
noncomputable def vectorCoordinateSens (l0 perPartition : ℕ) : Sens := randomNoiseSens l0 perPartition

end PDP.Engine
