import Verif.Engine.Combiners

/-!
# Model of releasing metrics: `compute_metrics` and `create_compound_combiner`

Noise is a function: `noise x` is the value that the mechanism returns for `x` in the execution at hand.
-/

namespace PDP.Engine

/-- Equality of ranges is tested on floats (`dp_computations.py:291`); here on rationals.
`dp_computations.py:263-303` `_compute_mean_for_normalized_sum` with the noise already chosen. -/
def meanForNormalizedSum (noise : ℚ → ℚ) (dpCount sum lo hi : ℚ) : ℚ :=
  if lo = hi then lo
  else noise sum / max 1 dpCount

/-- Released count, sum and mean. -/
structure MeanOut where
  count : ℚ
  sum : ℚ
  mean : ℚ
  deriving DecidableEq, Repr

/-- `dp_computations.py:562-568` `MeanMechanism.compute_mean`, called by `combiners.py:488-497`. -/
def computeMean (noiseCount noiseSum : ℚ → ℚ) (rangeMiddle : ℚ) (count : ℕ) (normalizedSum : ℚ) : MeanOut :=
  let dpCount := noiseCount count
  let denominator := max 1 dpCount
  let dpNormalizedSum := noiseSum normalizedSum
  let dpMean := rangeMiddle + dpNormalizedSum / denominator
  ⟨dpCount, dpMean * dpCount, dpMean⟩

/-- `combiners.py:488-519`: MEAN released from an accumulator. -/
def releaseMean (noiseCount noiseSum : ℚ → ℚ) (lo hi : ℚ) (acc : ℕ × ℚ) : MeanOut :=
  computeMean noiseCount noiseSum (middle lo hi) acc.1 acc.2

/-- Released count, sum, mean and variance. -/
structure VarOut where
  count : ℚ
  sum : ℚ
  mean : ℚ
  variance : ℚ
  deriving DecidableEq, Repr

/-- `dp_computations.py:306-365` `compute_dp_var`, called by `combiners.py:566-578`. -/
def releaseVariance (noiseCount noiseSum noiseSquares : ℚ → ℚ) (lo hi : ℚ) (acc : ℕ × ℚ × ℚ) : VarOut :=
  let dpCount := noiseCount acc.1
  let dpMean := meanForNormalizedSum noiseSum dpCount acc.2.1 lo hi
  let sq := squaresInterval lo hi
  let dpMeanSquares := meanForNormalizedSum noiseSquares dpCount acc.2.2 sq.1 sq.2
  let dpVar := dpMeanSquares - dpMean ^ 2
  let dpMean := if lo ≠ hi then dpMean + middle lo hi else dpMean
  ⟨dpCount, dpMean * dpCount, dpMean, dpVar⟩

/-! ### Vectors -/

/-- Scale by `min(1, max_norm / norm)`; numpy's division of a non-negative number by 0 gives `inf` or `nan`, for
which Python's `min(1, ·)` is 1. -/
noncomputable def scaleTo (v : List ℝ) (maxNorm norm : ℝ) : List ℝ :=
  v.map fun x => x * (if norm = 0 then 1 else min 1 (maxNorm / norm))

/-- `dp_computations.py:197-208` `_clip_vector`. -/
noncomputable def clipVector (v : List ℝ) (maxNorm : ℝ) : NormKind → Except Err (List ℝ)
  | .linf => .ok (v.map fun x => min (max x (-maxNorm)) maxNorm)
  | .l1 => .ok (scaleTo v maxNorm (v.map abs).sum)
  | .l2 => .ok (scaleTo v maxNorm (Real.sqrt (v.map fun x => x ^ 2).sum))
  | .l0 => .error .notImplemented

/-- `combiners.py:831-836`, `dp_computations.py:211-229`: what VECTOR_SUM releases for a merged
accumulator; `None` cannot be clipped. -/
noncomputable def releaseVector (noise : ℕ → ℝ → ℝ) (maxNorm : ℝ) (kind : NormKind) (acc : Combiner.VecAcc) :
    Except Err (List ℝ) :=
  match acc with
  | .error => .error .typeError
  | .empty => .error .typeError
  | .vec v => do
    let c ← clipVector (v.map fun (x : ℚ) => (x : ℝ)) maxNorm kind
    return c.mapIdx noise

/-! ### Which combiners, names and budgets -/

/-- `aggregate_params.py:92-97`, `MechanismType` of a request made by a combiner or (generic) by partition selection. -/
inductive Mechanism where
  | laplace | gaussian | laplaceThresholding | gaussianThresholding | generic
  deriving DecidableEq, Repr

/-- `aggregate_params.py:79-83` `convert_to_mechanism_type`. -/
def NoiseKind.mechanism : NoiseKind → Mechanism
  | .laplace => .laplace
  | .gaussian => .gaussian

/-- `aggregate_params.py:120-126` `noise_to_thresholding`. -/
def NoiseKind.thresholding : NoiseKind → Mechanism
  | .laplace => .laplaceThresholding
  | .gaussian => .gaussianThresholding

/-- A budget request: mechanism and weight. -/
structure Request where
  mechanism : Mechanism
  weight : ℚ
  deriving DecidableEq, Repr

/-- A combiner created by `create_compound_combiner`, with the positions of its budget requests. -/
inductive Part where
  | variance (spec : ℕ) (names : List String)
  | mean (countSpec sumSpec : ℕ) (names : List String)
  | count (spec : ℕ)
  | sum (spec : ℕ)
  | privacyIdCount (spec : ℕ)
  | thresholding (spec : ℕ)
  | vectorSum (spec : ℕ)
  | quantile (spec : ℕ) (percentiles : List ℚ)
  deriving DecidableEq, Repr

/-- Budget requests used by a combiner (`mechanism_spec()`). -/
def Part.specs : Part → List ℕ
  | .variance s _ => [s]
  | .mean a b _ => [a, b]
  | .count s => [s]
  | .sum s => [s]
  | .privacyIdCount s => [s]
  | .thresholding s => [s]
  | .vectorSum s => [s]
  | .quantile s _ => [s]

/-- `metrics_names()` of the combiners; `fmt p` is the number `p` as in `combiners.py:637-643`. -/
def Part.names (fmt : ℚ → String) : Part → List String
  | .variance _ ns => ns
  | .mean _ _ ns => ns
  | .count _ => ["count"]
  | .sum _ => ["sum"]
  | .privacyIdCount _ => ["privacy_id_count"]
  | .thresholding _ => ["privacy_id_count"]
  | .vectorSum _ => ["vector_sum"]
  | .quantile _ ps => ps.map fun p => "percentile_" ++ fmt p

/-- Keys of the dictionary that `compute_metrics()` of the combiner returns, in insertion order
(`combiners.py:262-263, 304-305, 353-357, 416-417, 488-497, 566-578, 635-636, 831-836`).  For
percentiles the dictionary is built from pairs, so repeated names collapse. -/
def Part.keys (fmt : ℚ → String) : Part → List String
  | .variance _ ns => ["variance"] ++ (if "count" ∈ ns then ["count"] else [])
      ++ (if "sum" ∈ ns then ["sum"] else []) ++ (if "mean" ∈ ns then ["mean"] else [])
  | .mean _ _ ns => ["mean"] ++ (if "count" ∈ ns then ["count"] else [])
      ++ (if "sum" ∈ ns then ["sum"] else [])
  | .count _ => ["count"]
  | .sum _ => ["sum"]
  | .privacyIdCount _ => ["privacy_id_count"]
  | .thresholding _ => ["privacy_id_count"]
  | .vectorSum _ => ["vector_sum"]
  | .quantile _ ps => (ps.map fun p => "percentile_" ++ fmt p).dedup

/-- `request_budget`: appends the request and returns its position. -/
def requestBudget (rs : List Request) (m : Mechanism) (w : ℚ) : ℕ × List Request := (rs.length, rs ++ [⟨m, w⟩])

/-- `combiners.py:855-885`: the first part, variance or mean or count and sum. -/
def scalarParts (p : Params) (rs : List Request) : List Part × List Request :=
  let m := p.noiseKind.mechanism
  if Metric.variance ∈ p.metrics then
    let (s, rs) := requestBudget rs m p.budgetWeight
    ([.variance s (["variance"] ++ (if Metric.mean ∈ p.metrics then ["mean"] else [])
      ++ (if Metric.count ∈ p.metrics then ["count"] else [])
      ++ (if Metric.sum ∈ p.metrics then ["sum"] else []))], rs)
  else if Metric.mean ∈ p.metrics then
    let (a, rs) := requestBudget rs m p.budgetWeight
    let (b, rs) := requestBudget rs m p.budgetWeight
    ([.mean a b (["mean"] ++ (if Metric.count ∈ p.metrics then ["count"] else [])
      ++ (if Metric.sum ∈ p.metrics then ["sum"] else []))], rs)
  else
    let (c, rs) := if Metric.count ∈ p.metrics then
      let (s, rs) := requestBudget rs m p.budgetWeight
      ([Part.count s], rs) else ([], rs)
    let (d, rs) := if Metric.sum ∈ p.metrics then
      let (s, rs) := requestBudget rs m p.budgetWeight
      ([Part.sum s], rs) else ([], rs)
    (c ++ d, rs)

/-- `combiners.py:886-897` and the request in `combiners.py:337-341`. -/
def privacyIdPart (p : Params) (rs : List Request) : List Part × List Request :=
  if Metric.privacyIdCount ∈ p.metrics then
    if p.postThresholding then
      let (s, rs) := requestBudget rs p.noiseKind.thresholding p.budgetWeight
      ([.thresholding s], rs)
    else
      let (s, rs) := requestBudget rs p.noiseKind.mechanism p.budgetWeight
      ([.privacyIdCount s], rs)
  else ([], rs)

/-- `combiners.py:898-903`. -/
def vectorPart (p : Params) (rs : List Request) : List Part × List Request :=
  if Metric.vectorSum ∈ p.metrics then
    let (s, rs) := requestBudget rs p.noiseKind.mechanism p.budgetWeight
    ([.vectorSum s], rs)
  else ([], rs)

/-- `combiners.py:905-918`. -/
def quantilePart (p : Params) (rs : List Request) : List Part × List Request :=
  let ps := p.metrics.filterMap Metric.percentile?
  if ps ≠ [] then
    let (s, rs) := requestBudget rs p.noiseKind.mechanism p.budgetWeight
    ([.quantile s ps], rs)
  else ([], rs)

/-- `combiners.py:849-922` `create_compound_combiner` with `CompoundCombiner.__init__` (`combiners.py:732-747`).
`rs` are the requests made before. -/
def createCompound (fmt : ℚ → String) (p : Params) (rs : List Request) :
    Except Err (List Part) × List Request :=
  let (a, rs) := scalarParts p rs
  let (b, rs) := privacyIdPart p rs
  let (c, rs) := vectorPart p rs
  let (d, rs) := quantilePart p rs
  let parts := a ++ b ++ c ++ d
  if (parts.flatMap (Part.names fmt)).Nodup then (.ok parts, rs) else (.error .valueError, rs)

/-- `combiners.py:766-788` `CompoundCombiner.compute_metrics`: the names of the released tuple; raises if
a name is computed twice. -/
def releasedNames (fmt : ℚ → String) (parts : List Part) : Except Err (List String) :=
  parts.foldlM (fun acc part =>
    if (part.keys fmt).any (fun k => acc.contains k) then .error .keyError
    else .ok (acc ++ part.keys fmt)) []

/-- The name under which a metric is released. -/
def Metric.name (fmt : ℚ → String) : Metric → String
  | .count => "count"
  | .privacyIdCount => "privacy_id_count"
  | .sum => "sum"
  | .mean => "mean"
  | .variance => "variance"
  | .vectorSum => "vector_sum"
  | .percentile p => "percentile_" ++ fmt p

end PDP.Engine
