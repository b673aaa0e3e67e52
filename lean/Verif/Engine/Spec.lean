import Verif.Engine.Model

/-! # Specification vocabulary for the engine -/

namespace PDP.Engine

variable {P K V A : Type} [DecidableEq P] [DecidableEq K]

/-- Parameters that pass `AggregateParams.__post_init__` as far as contribution bounds are concerned:
either one bound on all contributions of an id, or a bound on partitions and one on contributions per
partition. -/
def Params.BoundsValid (p : Params) : Prop :=
  (∃ m, 1 ≤ m ∧ p.maxContributions = some m ∧ p.maxPartitions = none ∧ p.maxPerPartition = none) ∨
  (∃ l0 linf, 1 ≤ l0 ∧ 1 ≤ linf ∧ p.maxContributions = none ∧ p.maxPartitions = some l0 ∧
    p.maxPerPartition = some linf)

/-- The dataset without the rows of id `u`. -/
def without (u : P) (col : List (P × K × V)) : List (P × K × V) := col.filter fun r => r.1 ≠ u

/-- The exact (noise-free) value of partition `k`: the measure `μ` of accumulators summed over the
accumulators of the partition. -/
def partitionTotal (μ : A → ℚ) (accs : List (K × A)) (k : K) : ℚ := ((valuesOf k accs).map μ).sum

/-- The declared sensitivities `s` bound the change `Δ` over all partitions: number of changed
partitions, largest change, sum of changes and Euclidean norm of changes, for every finite set of
partitions. The L1 and L2 sensitivities, which calibrate Laplace and Gaussian noise, must be
declared. -/
structure Sens.Covers (s : Sens) (Δ : K → ℚ) : Prop where
  l0 : ∀ x, s.l0 = some x → ∀ ks : List K, ks.Nodup → ((ks.filter fun k => Δ k ≠ 0).length : ℝ) ≤ x
  linf : ∀ x, s.linf = some x → ∀ k, |((Δ k : ℚ) : ℝ)| ≤ x
  l1 : ∃ x, s.l1 = some x ∧ ∀ ks : List K, ks.Nodup → (((ks.map fun k => |Δ k|).sum : ℚ) : ℝ) ≤ x
  l2 : ∃ x, s.l2 = some x ∧ ∀ ks : List K, ks.Nodup →
    Real.sqrt ((ks.map fun k => Δ k ^ 2).sum : ℚ) ≤ x

/-- If cross-partition bounding is switched off, or bounding is not performed at all, then the caller
promises that id `u` is within the bounds. -/
def CallerKeepsBounds (p : Params) (u : P) (col : List (P × K × V)) : Prop :=
  (p.boundsEnforced = true →
    (∀ m, p.maxContributions = some m → (col.filter fun r => r.1 = u).length ≤ m) ∧
    (∀ l0, p.maxPartitions = some l0 → (partitionsOf u col).length ≤ l0) ∧
    (∀ linf, p.maxPerPartition = some linf → ∀ k, (cell u k col).length ≤ linf)) ∧
  (p.performCross = false → ∀ l0, p.maxPartitions = some l0 → (partitionsOf u col).length ≤ l0)

end PDP.Engine
