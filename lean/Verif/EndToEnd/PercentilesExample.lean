import Verif.EndToEnd.PercentilesMore
import Verif.EndToEnd.CustomExample

/-! # Pipelines with percentiles: an example (C75) -/

set_option linter.unusedSectionVars false

namespace PDP.EndToEnd

open PDP PDP.Engine MeasureTheory
open PDP.Engine.AddNoise (specOf)
open PDP.Approx (Indist)

/-- A tree that keeps the contract: the results of all quantiles are the number of values with Laplace noise. -/
noncomputable def exampleTree : TreeLibrary := fun a m =>
  if 0 < (a.linf : ℝ) * a.l0 / a.eps then (noisy (.laplace ((a.linf : ℝ) * a.l0 / a.eps) 1) m.card).map fun x _ => x
  else Measure.dirac 0

theorem exampleTree_contract : TreeContract exampleTree := by
  refine ⟨fun a m => ?_, ?_⟩
  · unfold exampleTree
    split
    · rename_i h
      have := noisy_laplace_prob h 1 m.card
      exact Measure.isProbabilityMeasure_map measurable_constSeq.aemeasurable
    · infer_instance
  · intro a _ he hd _ h0 hi ι _ x y w hw hcard hl0
    classical
    have hs : (0 : ℝ) < (a.linf : ℝ) * a.l0 := by
      have h1 : (0 : ℝ) < a.linf := by exact_mod_cast hi
      have h2 : (0 : ℝ) < a.l0 := by exact_mod_cast h0
      positivity
    have hb := div_pos hs he
    have key : ∀ z : ι → Multiset ℚ, Measure.pi (fun i => exampleTree a (z i))
        = (Measure.pi fun i => noisy (.laplace ((a.linf : ℝ) * a.l0 / a.eps) 1) (z i).card).map fun v i (_ : ℕ) => v i := by
      intro z
      have hp : ∀ i, IsProbabilityMeasure (noisy (.laplace ((a.linf : ℝ) * a.l0 / a.eps) 1) ((z i).card : ℝ)) :=
        fun i => noisy_laplace_prob hb 1 _
      simp only [exampleTree, if_pos hb]
      have := fun i => Measure.isProbabilityMeasure_map (μ := noisy (.laplace ((a.linf : ℝ) * a.l0 / a.eps) 1) ((z i).card : ℝ))
        measurable_constSeq.aemeasurable
      rw [← Measure.pi_map_pi fun i => measurable_constSeq.aemeasurable]
    have hsum : ∑ i, ((w i).card : ℝ) ≤ (a.linf : ℝ) * a.l0 := by
      have h1 : ∑ i, (w i).card ≤ a.linf * a.l0 := by
        calc ∑ i, (w i).card = ∑ i ∈ Finset.univ.filter fun i => w i ≠ 0, (w i).card := by
              rw [Finset.sum_filter]
              refine Finset.sum_congr rfl fun i _ => ?_
              split
              · rfl
              · rename_i h; push Not at h; rw [h]; rfl
          _ ≤ (Finset.univ.filter fun i => w i ≠ 0).card * a.linf := by
              rw [← smul_eq_mul]
              exact Finset.sum_le_card_nsmul _ _ _ fun i _ => hcard i
          _ ≤ a.l0 * a.linf := Nat.mul_le_mul_right _ (by convert hl0)
          _ = a.linf * a.l0 := Nat.mul_comm _ _
      exact_mod_cast h1
    have hm : Measurable fun (v : ι → ℝ) i (_ : ℕ) => v i := by fun_prop
    rw [key x, key y]
    constructor
    · refine Indist.map ((laplace_group he hs _ _ (le_trans (le_of_eq ?_) hsum) 1).mono le_rfl hd) hm
      refine Finset.sum_congr rfl fun i _ => ?_
      rw [hw, Multiset.card_add, Nat.cast_add, add_sub_cancel_right, abs_of_nonneg (Nat.cast_nonneg _)]
    · refine Indist.map ((laplace_group he hs _ _ (le_trans (le_of_eq ?_) hsum) 1).mono le_rfl hd) hm
      refine Finset.sum_congr rfl fun i _ => ?_
      rw [hw, Multiset.card_add, Nat.cast_add, abs_sub_comm, add_sub_cancel_right, abs_of_nonneg (Nat.cast_nonneg _)]

/-- Two percentiles and MEAN, with Gaussian noise, on private partitions, with weight 3. -/
def examplePercentiles : Params where
  metrics := [.percentile 10, .mean, .percentile 90]
  noiseKind := .gaussian
  maxPartitions := some 2
  maxPerPartition := some 3
  minValue := some 0
  maxValue := some 5
  budgetWeight := 3

/-- Percentiles of private days, of public days, and the steps of C74's example. -/
def exampleQ : List (XStep (ℕ × ℕ × ℚ) ℕ ℚ) :=
  .step (.call (.aggregate examplePercentiles none (fun r => r.2.1) fun r => r.2.2)) ::
  .step (.call (.aggregate { examplePercentiles with metrics := [.percentile 50], noiseKind := .laplace } (some [0, 1]) (fun r => r.2.1)
    fun r => r.2.2)) :: exampleX

theorem exampleQ_supported : ∀ c ∈ exampleQ, c.SupportedAny fun _ => countClass := by
  intro c hc
  simp only [exampleQ, List.mem_cons] at hc
  rcases hc with rfl | rfl | hc
  · show SupportedAny _ _
    refine ⟨by simp [Params.BoundsValid, examplePercentiles], by simp [examplePercentiles], by simp [examplePercentiles],
      by simp [examplePercentiles], by simp [examplePercentiles], fun _ _ => ⟨0, 5, rfl, rfl, by norm_num⟩, by simp [examplePercentiles],
      fun _ _ => ⟨rfl, 0, 5, rfl, rfl, by norm_num⟩, by simp [examplePercentiles], by simp [examplePercentiles]⟩
  · show SupportedAny _ _
    refine ⟨by simp [Params.BoundsValid, examplePercentiles], by simp [examplePercentiles], by simp,
      by simp, by simp, by simp, by simp,
      fun _ _ => ⟨rfl, 0, 5, rfl, rfl, by norm_num⟩, by simp [examplePercentiles], by simp⟩
  · exact (exampleX_supported c hc).any

theorem exampleQ_named (fmt : ℚ → String) (hf : fmt 10 ≠ fmt 90) : ∀ c ∈ exampleQ, c.Named fmt := by
  intro c hc
  simp only [exampleQ, List.mem_cons] at hc
  rcases hc with rfl | rfl | hc
  · show List.Nodup [fmt 10, fmt 90]
    simp [hf]
  · show List.Nodup [fmt 50]
    simp
  · simp only [exampleX, exampleSteps, exampleCalls, List.mem_cons, List.mem_map, List.mem_append, List.not_mem_nil, or_false] at hc
    rcases hc with rfl | rfl | ⟨c, rfl | ⟨c, rfl | rfl | rfl | rfl, rfl⟩ | rfl, rfl⟩
    all_goals first | trivial | exact List.nodup_nil

theorem exampleQ_promised (data : List (ℕ × ℕ × ℚ)) (u : ℕ) : ∀ c ∈ exampleQ, c.Promised Prod.fst data u := by
  intro c hc
  simp only [exampleQ, exampleX, List.mem_cons, List.mem_map] at hc
  rcases hc with rfl | rfl | rfl | rfl | ⟨c, hc, rfl⟩
  · exact ⟨⟨fun h => by simp [examplePercentiles] at h, fun h => by simp [examplePercentiles] at h⟩,
      fun h => by simp [examplePercentiles] at h⟩
  · exact ⟨⟨fun h => by simp [examplePercentiles] at h, fun h => by simp [examplePercentiles] at h⟩,
      fun h => by simp [examplePercentiles] at h⟩
  · exact ⟨⟨fun h => by simp [exampleCustom] at h, fun h => by simp [exampleCustom] at h⟩, fun h => by simp [exampleCustom] at h⟩
  · exact ⟨⟨fun h => by simp [exampleCustom] at h, fun h => by simp [exampleCustom] at h⟩, fun h => by simp [exampleCustom] at h⟩
  · simp only [exampleSteps, List.mem_cons, List.mem_append, List.mem_map, List.not_mem_nil, or_false] at hc
    rcases hc with rfl | ⟨c, hc, rfl⟩ | rfl
    · exact usersPerDay_sensitive _ _ data u
    · show Call.Promised Prod.fst data u c
      simp only [exampleCalls, List.mem_cons, List.not_mem_nil, or_false] at hc
      rcases hc with rfl | rfl | rfl | rfl
      · exact ⟨⟨fun h => by simp [examplePrivate] at h, fun h => by simp [examplePrivate] at h⟩,
          fun h => by simp [examplePrivate] at h⟩
      · exact ⟨⟨fun h => by simp [exampleThresholded] at h, fun h => by simp [exampleThresholded] at h⟩,
          fun h => by simp [exampleThresholded] at h⟩
      · exact ⟨⟨fun h => by simp [exampleVariance] at h, fun h => by simp [exampleVariance] at h⟩,
          fun h => by simp [exampleVariance] at h⟩
      · trivial
    · exact usersPerDay_sensitive _ _ data u

/-- The first two calls of the pipeline: the percentiles of a call are one combiner with one budget. -/
example : let fmt : ℚ → String := fun q => if q = 10 then "10" else "90"
    ∃ rs1 rs2,
      build fmt [] (.aggregate examplePercentiles (none : Option (List ℕ)) (fun r : ℕ × ℕ × ℚ => r.2.1) fun r => r.2.2)
        = (.ok ⟨[.mean 0 1 ["mean"], .quantile 2 [10, 90]], some 3⟩, rs1) ∧
      build fmt rs1 (.aggregate { examplePercentiles with metrics := [.percentile 50], noiseKind := .laplace } (some [0, 1])
        (fun r : ℕ × ℕ × ℚ => r.2.1) fun r => r.2.2) = (.ok ⟨[.quantile 4 [50]], none⟩, rs2) ∧
      rs2.map Request.mechanism = [.gaussian, .gaussian, .gaussian, .generic, .laplace] := by
  refine ⟨_, _, rfl, rfl, rfl⟩

/-- A percentile which is asked for twice. -/
example (fmt : ℚ → String) :
    ¬ (XStep.step (.call (.aggregate { examplePercentiles with metrics := [.percentile 10, .mean, .percentile 10] } none (fun r => r.2.1)
      fun r => r.2.2)) : XStep (ℕ × ℕ × ℚ) ℕ ℚ).Named fmt := by
  show ¬ List.Nodup [fmt 10, fmt 10]
  simp

/-- The hypotheses of C75 hold for this pipeline with total budget (1, 1/1000) and announced weights, on every dataset, for every
user. -/
example (fmt : ℚ → String) (hf : fmt 10 ≠ fmt 90) (data : List (ℕ × ℕ × ℚ)) (u : ℕ) :
    ∃ s0 bs ops st', Budget.init 1 (1 / 1000) none (some [3, 3, 1, 2, 2, 1, 2, 2, 1, 1]) = .ok s0 ∧
      planX (fun _ => countClass) fmt [] (fun _ => none) exampleQ = .ok (bs, ops, st') ∧
      let s := specOf (Budget.step (Budget.run s0 ops).1 .compute).1
      ∃ L L' : Unit → List (List (QCandidate ℕ) × List (CustomCandidate ℕ ℝ)),
        (∀ ω, evalXQ exampleTree fmt (fun _ => countClass) exampleLibrary.sigma s st' (fun _ => exampleEnv firstRng) Prod.fst data 0 exampleQ bs
            = .ok (L ω) ∧
          evalXQ exampleTree fmt (fun _ => countClass) exampleLibrary.sigma s st' (fun _ => exampleEnv firstRng) Prod.fst
            (data.filter fun r => r.1 ≠ u) 0 exampleQ bs = .ok (L' ω)) ∧
        ∀ (U : Finset (ℕ × ℕ)) (S : Finset QLabel) (T : Finset ℕ), ∀ A, MeasurableSet A →
          observedQ exampleLibrary 0 U S T (L ()) A
            ≤ ENNReal.ofReal (Real.exp 1) * observedQ exampleLibrary 0 U S T (L' ()) A + ENNReal.ofReal (1 / 1000) := by
  obtain ⟨s0, h0⟩ : ∃ s0, Budget.init 1 (1 / 1000) none (some [3, 3, 1, 2, 2, 1, 2, 2, 1, 1]) = .ok s0 := by
    norm_num [Budget.init]
  obtain ⟨bs, ops, st', hp, -, hc⟩ := C75_supported_pipeline_runs fmt (fun _ => countClass) exampleQ exampleQ_supported
    (exampleQ_named fmt hf) h0 (fun _ => by norm_num) ⟨by simp, by intro l hl; cases hl; rfl⟩ fun _ => none
  have hn : (exampleQ.flatMap XStep.objects).Nodup := by
    have : exampleQ.flatMap XStep.objects = [0, 1, 2] := rfl
    rw [this]; decide
  refine ⟨s0, bs, ops, st', h0, hp, ?_⟩
  obtain ⟨L, L', h1, h2⟩ := C75_percentile_pipeline_is_differentially_private fmt exampleLibrary exampleLibrary_contract exampleTree
    exampleTree_contract (fun _ => countClass) (0 : ℝ) h0 exampleQ exampleQ_supported hn (fun _ => by norm_num) hp hc (Measure.dirac ())
    (fun _ _ => exampleEnv firstRng) (fun _ _ => exampleEnv_lawful _) Prod.fst data u (exampleQ_promised data u)
  refine ⟨L, L', h1, fun U S T A hA => ?_⟩
  have := ((h2 U S T).2 A hA).1
  simpa using this

end PDP.EndToEnd
