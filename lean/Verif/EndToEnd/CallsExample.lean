import Verif.EndToEnd.CallsCover
import Verif.EndToEnd.Thresholding

/-!
# A concrete pipeline and library for C62
-/

namespace PDP.EndToEnd

open PDP.Engine.AddNoise (specOf)
open PDP PDP.Engine MeasureTheory
open PDP.Budget (State Op MechType)

/-- A library that keeps the promises of PyDP. -/
noncomputable def exampleLibrary : Library where
  sigma := fun e d x => x * Real.sqrt (1 / e + 4 / (e ^ 2 * d))
  keep := fun _ _ d l0 _ n => max 0 (min 1 (n * (d / l0)))
  threshold := fun _ e d l0 _ n => laplaceThresholding e d l0 n

theorem exampleLibrary_contract : exampleLibrary.Contract :=
  ⟨gaussianContract_example, selectionContract_example, thresholdingContract_laplace⟩

/-- COUNT and MEAN with Gaussian noise, private partitions, Gaussian thresholding as selection strategy. -/
def examplePrivate : Params where
  metrics := [.count, .mean]
  noiseKind := .gaussian
  maxPartitions := some 2
  maxPerPartition := some 3
  minValue := some 0
  maxValue := some 5
  strategy := .gaussianThresholding

/-- PRIVACY_ID_COUNT and SUM with Laplace noise and post-aggregation thresholding, with double weight. -/
def exampleThresholded : Params where
  metrics := [.privacyIdCount, .sum]
  maxPartitions := some 4
  maxPerPartition := some 1
  minSum := some (-1)
  maxSum := some 7
  postThresholding := true
  budgetWeight := 2

/-- Four calls on rows (user, day, amount): private days, thresholded days, public days, selected days. -/
def exampleCalls : List (Call (ℕ × ℕ × ℚ) ℕ) :=
  [.aggregate examplePrivate none (fun r => r.2.1) (fun r => r.2.2),
   .aggregate exampleThresholded none (fun r => r.2.1) (fun r => r.2.2),
   .aggregate exampleVariance (some [0, 1, 2]) (fun r => r.2.1) (fun r => r.2.2),
   .select { maxPartitions := 3, preThreshold := some 2 } (fun r => r.2.1)]

theorem exampleCalls_supported : ∀ c ∈ exampleCalls, c.Supported := by
  intro c hc
  simp only [exampleCalls, List.mem_cons, List.not_mem_nil, or_false] at hc
  rcases hc with rfl | rfl | rfl | rfl
  · show SupportedAggregate _ _
    refine ⟨by simp [Params.BoundsValid, examplePrivate], by simp [examplePrivate], by simp [examplePrivate],
      by simp [examplePrivate], by simp [examplePrivate], fun _ _ => ⟨0, 5, rfl, rfl, by norm_num⟩, by simp [examplePrivate],
      by simp [examplePrivate], by simp [examplePrivate]⟩
  · show SupportedAggregate _ _
    refine ⟨by simp [Params.BoundsValid, exampleThresholded], by simp [exampleThresholded], by simp [exampleThresholded],
      by simp [exampleThresholded], fun _ _ _ => Or.inr ⟨-1, 7, rfl, rfl, by norm_num, by norm_num, rfl, rfl, rfl⟩,
      by simp [exampleThresholded], by simp [exampleThresholded], by simp [exampleThresholded], by simp [exampleThresholded]⟩
  · show SupportedAggregate _ _
    refine ⟨by simp [Params.BoundsValid, exampleVariance], by simp [exampleVariance], by simp [exampleVariance],
      by simp [exampleVariance], by simp [exampleVariance], by simp [exampleVariance],
      fun _ => ⟨⟨1, 3, rfl, rfl, by norm_num, Or.inl (by norm_num)⟩, rfl⟩, by simp [exampleVariance], by simp⟩
  · exact ⟨by norm_num, by norm_num⟩

/-- The combiners of the pipeline with the positions of the budgets: eight mechanisms share the total budget. -/
example (fmt : ℚ → String) : ∃ ops, planCalls fmt [] exampleCalls =
    .ok ([⟨[.mean 0 1 ["mean", "count"]], some 2⟩, ⟨[.sum 3, .thresholding 4], none⟩,
      ⟨[.variance 5 ["variance"], .privacyIdCount 6], none⟩, ⟨[], some 7⟩], ops) := ⟨_, rfl⟩

/-- The hypotheses of C62 hold for this pipeline with total budget (1, 1/1000) and announced weights, on every dataset, for every
user, with a fair choice between two generators. -/
example (fmt : ℚ → String) (data : List (ℕ × ℕ × ℚ)) (u : ℕ) :
    ∃ s0 bs ops, Budget.init 1 (1 / 1000) none (some [1, 2, 2, 1]) = .ok s0 ∧ planCalls fmt [] exampleCalls = .ok (bs, ops) ∧
      let s := specOf (Budget.step (Budget.run s0 ops).1 .compute).1
      let env : Bool → ℕ → Env ℕ := fun b _ => exampleEnv (if b then firstRng else lastRng)
      let μ : Measure Bool := (1 / 2 : ENNReal) • Measure.count
      ∃ L L' : Bool → List (List (Candidate ℕ)),
        (∀ ω, evalCalls exampleLibrary.sigma s (env ω) Prod.fst data 0 exampleCalls bs = .ok (L ω) ∧
          evalCalls exampleLibrary.sigma s (env ω) Prod.fst (removeId Prod.fst u data) 0 exampleCalls bs = .ok (L' ω)) ∧
        ∀ (U : Finset (ℕ × ℕ)) (S : Finset (ℕ × ℕ)), ∀ A, MeasurableSet A →
          ∫⁻ ω, observedLaw exampleLibrary U S (L ω) A ∂μ
            ≤ ENNReal.ofReal (Real.exp 1) * ∫⁻ ω, observedLaw exampleLibrary U S (L' ω) A ∂μ + ENNReal.ofReal (1 / 1000) := by
  obtain ⟨s0, h0⟩ : ∃ s0, Budget.init 1 (1 / 1000) none (some [1, 2, 2, 1]) = .ok s0 := by
    norm_num [Budget.init]
  obtain ⟨bs, ops, hp, -, hc⟩ := C62_supported_pipeline_runs fmt exampleCalls exampleCalls_supported h0
    (fun _ => by norm_num) ⟨by simp, by intro l hl; cases hl; rfl⟩
  refine ⟨s0, bs, ops, h0, hp, ?_⟩
  have : IsProbabilityMeasure ((1 / 2 : ENNReal) • Measure.count : Measure Bool) := by
    constructor
    rw [Measure.smul_apply, Measure.count_apply MeasurableSet.univ]
    simp only [Set.encard_univ, ENat.card_eq_coe_fintype_card, Fintype.card_bool, smul_eq_mul]
    rw [one_div]
    exact ENNReal.inv_mul_cancel (by simp) (by simp)
  obtain ⟨L, L', h1, h2⟩ := C62_pipeline_is_differentially_private fmt exampleLibrary exampleLibrary_contract h0 exampleCalls
    exampleCalls_supported (fun _ => by norm_num) hp hc ((1 / 2 : ENNReal) • Measure.count)
    (fun (b : Bool) _ => exampleEnv (if b then firstRng else lastRng)) (fun b j => exampleEnv_lawful _) Prod.fst data u (by
      intro c hc
      simp only [exampleCalls, List.mem_cons, List.not_mem_nil, or_false] at hc
      rcases hc with rfl | rfl | rfl | rfl
      · exact ⟨⟨fun h => by simp [examplePrivate] at h, fun h => by simp [examplePrivate] at h⟩,
          fun h => by simp [examplePrivate] at h⟩
      · exact ⟨⟨fun h => by simp [exampleThresholded] at h, fun h => by simp [exampleThresholded] at h⟩,
          fun h => by simp [exampleThresholded] at h⟩
      · exact ⟨⟨fun h => by simp [exampleVariance] at h, fun h => by simp [exampleVariance] at h⟩,
          fun h => by simp [exampleVariance] at h⟩
      · trivial)
  refine ⟨L, L', h1, fun U S A hA => ?_⟩
  have := ((h2 U S).2 A hA).1
  simpa using this

end PDP.EndToEnd
