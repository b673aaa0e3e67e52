import Verif.EndToEnd.Calls
import Verif.EndToEnd.Contracts

/-!
# Specification: the distribution of everything that a pipeline releases (C62)
-/

namespace PDP.EndToEnd

open PDP PDP.Engine MeasureTheory
open PDP.Approx (Indist)
open PDP.Private (SelectParams)

variable {R P K : Type} [DecidableEq P] [DecidableEq K]

/-! ### PyDP -/

/-- Count `n` of privacy ids of a partition as an outcome (released?, noisy count): without ids there is no partition. -/
noncomputable def orAbsentLaw (f : ℕ → Measure (Bool × ℝ)) (n : ℕ) : Measure (Bool × ℝ) :=
  if n = 0 then Measure.dirac (false, 0) else f n

/-- PyDP's `noised_value_if_should_keep` on a partition with `n ≥ 1` privacy ids has the distribution
`threshold strategy e d l0 pre n` of (is there a value?, the value or 0).  It is `(e, d)`-differentially private: for any
partitions, if one privacy id is counted (once) in at most `l0` of them, then the results with and without it are
indistinguishable. -/
structure ThresholdingContract (threshold : Strategy → ℝ → ℝ → ℝ → Option ℕ → ℕ → Measure (Bool × ℝ)) : Prop where
  prob : ∀ st e d l0 pre n, IsProbabilityMeasure (threshold st e d l0 pre n)
  dp : ∀ st e d l0 pre, 0 < e → 0 < d → 1 ≤ l0 → ∀ {ι : Type} [Fintype ι] (a b : ι → ℕ),
    (∀ i, b i ≤ a i ∧ a i ≤ b i + 1) → (Fintype.card {i // a i ≠ b i} : ℝ) ≤ l0 →
    Indist e d (Measure.pi fun i => orAbsentLaw (threshold st e d l0 pre) (a i))
        (Measure.pi fun i => orAbsentLaw (threshold st e d l0 pre) (b i)) ∧
      Indist e d (Measure.pi fun i => orAbsentLaw (threshold st e d l0 pre) (b i))
        (Measure.pi fun i => orAbsentLaw (threshold st e d l0 pre) (a i))

/-- The behaviour of PyDP: standard deviation of Gaussian noise; probability that a partition with `n` privacy ids is selected;
distribution of the thresholded count. -/
structure Library where
  sigma : ℝ → ℝ → ℝ → ℝ
  keep : Strategy → ℝ → ℝ → ℕ → Option ℕ → ℕ → ℝ
  threshold : Strategy → ℝ → ℝ → ℝ → Option ℕ → ℕ → Measure (Bool × ℝ)

/-- PyDP keeps its promises. -/
structure Library.Contract (lib : Library) : Prop where
  gaussian : GaussianContract lib.sigma
  selection : SelectionContract lib.keep
  thresholding : ThresholdingContract lib.threshold

/-! ### Distribution of a release -/

/-- Distribution of the decision on a partition: (is it released?, noisy count of a thresholded partition or 0). -/
noncomputable def Gate.law (lib : Library) : Gate → Measure (Bool × ℝ)
  | .always => Measure.dirac (true, 0)
  | .select st e d l0 pre n => (coin (lib.keep st e d l0 pre n)).map fun b => (b, 0)
  | .threshold st e d l0 pre n => lib.threshold st e d l0 pre n

/-- Decision on the partition `k`; a partition which is not a candidate is not released. -/
noncomputable def decisionLaw (lib : Library) (L : List (Candidate K)) (k : K) : Measure (Bool × ℝ) :=
  match L.find? fun c => c.key = k with
  | some c => c.gate.law lib
  | none => Measure.dirac (false, 0)

/-- Distribution of the noisy number of the partition `k` with budget `l.1` and position `l.2`. -/
noncomputable def numberLaw (L : List (Candidate K)) (k : K) (l : ℕ × ℕ) : Measure ℝ :=
  match L.find? fun c => c.key = k with
  | some c =>
    match c.numbers.find? fun n => (n.spec, n.comp) = l with
    | some n => n.law
    | none => Measure.dirac 0
  | none => Measure.dirac 0

/-- The numbers of a partition are seen only if the partition is released. -/
def hide {ι κ : Type} (x : (ι → Bool × ℝ) × (ι × κ → ℝ)) : (ι → Bool × ℝ) × (ι × κ → ℝ) :=
  (x.1, fun i => if (x.1 i.1).1 then x.2 i else 0)

/-- What is observed of a pipeline: for every call `j` and partition `k` with `(j, k) ∈ U`, whether the partition is released,
with its thresholded count, and then its numbers with the labels `S`.  All decisions and all noises are independent. -/
noncomputable def observedLaw (lib : Library) (U : Finset (ℕ × K)) (S : Finset (ℕ × ℕ)) (L : List (List (Candidate K))) :
    Measure ((U → Bool × ℝ) × (U × S → ℝ)) :=
  ((Measure.pi fun u : U => decisionLaw lib (L.getD u.1.1 []) u.1.2).prod
    (Measure.pi fun i : U × S => numberLaw (L.getD i.1.1.1 []) i.1.1.2 i.2.1)).map hide

/-! ### Supported calls -/

/-- Parameters of `aggregate` for which the whole pipeline is shown to be private: valid bounds, metrics COUNT,
PRIVACY_ID_COUNT, SUM, MEAN and VARIANCE outside the known defects (C16, C17); without public partitions, bounds on
partitions and a selection of partitions. -/
structure SupportedAggregate (p : Params) (pub : Option (List K)) : Prop where
  bounds : p.BoundsValid
  weight : 0 < p.budgetWeight
  metrics : ∀ m ∈ p.metrics, m = .count ∨ m = .privacyIdCount ∨ m = .sum ∨ m = .mean ∨ m = .variance
  ids : Metric.privacyIdCount ∈ p.metrics → p.boundsEnforced = false
  sum : Metric.sum ∈ p.metrics → Metric.mean ∉ p.metrics → Metric.variance ∉ p.metrics → SumOk p
  mean : Metric.mean ∈ p.metrics → Metric.variance ∉ p.metrics → MeanOk p
  variance : Metric.variance ∈ p.metrics → VarianceOk p
  thresholding : p.postThresholding = true → pub = none ∧ Metric.privacyIdCount ∈ p.metrics
  hidden : pub = none → p.maxContributions = none ∧ (p.postThresholding = false → p.publicFiltered = false)

/-- As `SupportedAggregate`, also with percentiles: these need bounds of values which are not equal, and are not supported with
`max_contributions` (`dp_engine.py:424-434`). -/
structure SupportedAny (p : Params) (pub : Option (List K)) : Prop where
  bounds : p.BoundsValid
  weight : 0 < p.budgetWeight
  metrics : Metric.vectorSum ∉ p.metrics
  ids : Metric.privacyIdCount ∈ p.metrics → p.boundsEnforced = false
  sum : Metric.sum ∈ p.metrics → Metric.mean ∉ p.metrics → Metric.variance ∉ p.metrics → SumOk p
  mean : Metric.mean ∈ p.metrics → Metric.variance ∉ p.metrics → MeanOk p
  variance : Metric.variance ∈ p.metrics → VarianceOk p
  percentiles : ∀ x, Metric.percentile x ∈ p.metrics → p.maxContributions = none ∧
    ∃ lo hi, p.minValue = some lo ∧ p.maxValue = some hi ∧ lo < hi
  thresholding : p.postThresholding = true → pub = none ∧ Metric.privacyIdCount ∈ p.metrics
  hidden : pub = none → p.maxContributions = none ∧ (p.postThresholding = false → p.publicFiltered = false)

theorem SupportedAggregate.any {p : Params} {pub : Option (List K)} (h : SupportedAggregate p pub) : SupportedAny p pub :=
  ⟨h.bounds, h.weight, fun hm => by simpa using h.metrics _ hm, h.ids, h.sum, h.mean, h.variance,
    fun x hm => absurd (h.metrics _ hm) (by simp), h.thresholding, h.hidden⟩

/-- A supported call. -/
def Call.Supported : Call R K → Prop
  | .aggregate p pub _ _ => SupportedAggregate p pub
  | .select p _ => 1 ≤ p.maxPartitions ∧ 0 < p.weight

/-- A supported call, also with percentiles. -/
def Call.SupportedAny : Call R K → Prop
  | .aggregate p pub _ _ => PDP.EndToEnd.SupportedAny p pub
  | .select p _ => 1 ≤ p.maxPartitions ∧ 0 < p.weight

theorem Call.Supported.any {c : Call R K} (h : c.Supported) : c.SupportedAny := by
  cases c with
  | aggregate p pub key value => exact SupportedAggregate.any h
  | select p key => exact h

/-- The call needs a positive delta: Gaussian noise, or partitions that are not public. -/
def Call.NeedsDelta : Call R K → Prop
  | .aggregate p pub _ _ => p.noiseKind = .gaussian ∨ pub = none
  | .select _ _ => True

/-- What the caller promises on the data of the privacy id `u`: bounds that the engine does not enforce, and (for all data) that
rows are in public partitions if they are said to be filtered already. -/
def Call.Promised (pid : R → P) (data : List R) (u : P) : Call R K → Prop
  | .aggregate p pub key value => CallerKeepsBounds p u (extract pid key value data) ∧
      (p.publicFiltered = true → ∀ ps, pub = some ps → ∀ r ∈ data, key r ∈ ps)
  | .select _ _ => True

end PDP.EndToEnd
