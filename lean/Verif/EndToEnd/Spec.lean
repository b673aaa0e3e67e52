import Verif.EndToEnd.Model
import Verif.Engine.SensitivityProps
import Verif.Engine.Partitions
import Mathlib.Analysis.SpecialFunctions.Trigonometric.Basic

/-! # Specification: densities of releases and supported parameters -/

namespace PDP.EndToEnd

open PDP PDP.Engine
open PDP.Engine.Mechanism (Additive laplaceDensity)

variable {R P K : Type} [DecidableEq P] [DecidableEq K]

/-- Density of the noise of a mechanism (assumed for PyDP): Laplace with the scale of the mechanism, or normal with its
standard deviation. -/
noncomputable def noiseDensity : Additive → ℝ → ℝ
  | .laplace b _, t => laplaceDensity b t
  | .gaussian s _, t => Real.exp (-t ^ 2 / (2 * s ^ 2)) / (s * Real.sqrt (2 * Real.pi))

/-- Joint density, with independent noise, that the noisy numbers `L` come out as `o`: the number with budget `i` and position
`c` in partition `k` as `o k i c`. -/
noncomputable def density (L : List (Noisy K)) (o : K → ℕ → ℕ → ℝ) : ℝ :=
  (L.map fun n => noiseDensity n.mech (o n.key n.spec n.comp - n.exact)).prod

/-- What identifies a number of the output. -/
def Noisy.label (n : Noisy K) : K × ℕ × ℕ := (n.key, n.spec, n.comp)

/-- The numbers released by one query: in every public partition, all numbers of all combiners. -/
noncomputable def queryLabels (sigma : ℝ → ℝ → ℝ → ℝ) (q : Query R K) (parts : List Part) : List (K × ℕ × ℕ) :=
  q.partitions.flatMap fun k => parts.flatMap fun part => (view sigma q.params part).numbers.map fun n => (k, n.spec, n.comp)

/-- The numbers released by a pipeline. -/
noncomputable def released (sigma : ℝ → ℝ → ℝ → ℝ) (qs : List (Query R K)) (ps : List (List Part)) : List (K × ℕ × ℕ) :=
  (qs.zip ps).flatMap fun x => queryLabels sigma x.1 x.2

/-- The dataset without the rows of the privacy id `u`. -/
def removeId (pid : R → P) (u : P) (data : List R) : List R := data.filter fun r => pid r ≠ u

/-- Bounds with which SUM is computed correctly: per value; or per partition if the engine bounds contributions. -/
def SumOk (p : Params) : Prop :=
  (∃ lo hi, p.minValue = some lo ∧ p.maxValue = some hi ∧ lo ≤ hi ∧ ¬(lo = 0 ∧ hi = 0) ∧ p.sumBoundsSet = false) ∨
  (∃ lo hi, p.minSum = some lo ∧ p.maxSum = some hi ∧ lo ≤ hi ∧ ¬(lo = 0 ∧ hi = 0) ∧ p.minValue = none ∧
    p.maxContributions = none ∧ p.boundsEnforced = false)

/-- Bounds with which MEAN is computed. -/
def MeanOk (p : Params) : Prop := ∃ lo hi, p.minValue = some lo ∧ p.maxValue = some hi ∧ lo < hi

/-- Bounds with which the noise of VARIANCE is large enough (see C17). -/
def VarianceOk (p : Params) : Prop :=
  (∃ lo hi, p.minValue = some lo ∧ p.maxValue = some hi ∧ lo < hi ∧ SquaresCovered lo hi) ∧ p.maxContributions = none

/-- Parameters for which the whole pipeline is shown to be private: valid bounds, Laplace noise, metrics COUNT,
PRIVACY_ID_COUNT, SUM, MEAN and VARIANCE outside the known defects (C16, C17). -/
structure Supported (p : Params) : Prop where
  bounds : p.BoundsValid
  laplace : p.noiseKind = .laplace
  weight : 0 < p.budgetWeight
  metrics : ∀ m ∈ p.metrics, m = .count ∨ m = .privacyIdCount ∨ m = .sum ∨ m = .mean ∨ m = .variance
  noThresholding : p.postThresholding = false
  ids : Metric.privacyIdCount ∈ p.metrics → p.boundsEnforced = false
  sum : Metric.sum ∈ p.metrics → Metric.mean ∉ p.metrics → Metric.variance ∉ p.metrics → SumOk p
  mean : Metric.mean ∈ p.metrics → Metric.variance ∉ p.metrics → MeanOk p
  variance : Metric.variance ∈ p.metrics → VarianceOk p

/-- A lawful execution environment: the contracts of the backend operations, and samples which depend only on the key they are
made for (the coupling of two runs on neighbouring datasets). -/
structure Env.Lawful (env : Env K) : Prop where
  backend : env.backend.Lawful
  keyLocal : env.backend.KeyLocal
  combine : ∀ {A : Type} (merge : A → A → A), LawfulCombine merge (env.combine merge)

end PDP.EndToEnd
