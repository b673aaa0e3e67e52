import Verif.EndToEnd.AccuracyAll
import Verif.EndToEnd.ReleasesExample

/-!
# Concrete cases for C91
-/

namespace PDP.EndToEnd

open PDP PDP.Engine MeasureTheory
open PDP.Engine.AddNoise (specOf)

/-- Laplace noise, at most two days per user and one row per day, values between 0 and 10. -/
def accurateParams (m : Metric) : Params :=
  { metrics := [m], noiseKind := .laplace, maxPartitions := some 2, maxPerPartition := some 1, minValue := some 0,
    maxValue := some 10 }

theorem accurateParams_supported {m : Metric} (hm : m = .count ∨ m = .privacyIdCount ∨ m = .sum ∨ m = .mean) :
    SupportedAggregate (accurateParams m) (some [0, 1, 5] : Option (List ℕ)) where
  bounds := .inr ⟨2, 1, by norm_num, by norm_num, rfl, rfl, rfl⟩
  weight := by norm_num [accurateParams]
  metrics := by
    intro m' h
    simp only [accurateParams, List.mem_singleton] at h
    subst h
    tauto
  ids := fun _ => rfl
  sum := fun _ _ _ => .inl ⟨0, 10, rfl, rfl, by norm_num, by norm_num, rfl⟩
  mean := fun _ _ => ⟨0, 10, rfl, rfl, by norm_num⟩
  variance := by
    intro h
    simp only [accurateParams, List.mem_singleton] at h
    subst h
    simp at hm
  thresholding := by simp [accurateParams]
  hidden := by simp

theorem accurateParams_within (m : Metric) :
    (Call.aggregate (accurateParams m) (some [0, 1, 5]) (fun r : ℕ × ℕ × ℚ => r.2.1) (fun r => r.2.2)).Within Prod.fst exampleData := by
  have hrel : relevant (some [0, 1, 5]) (extract Prod.fst (fun r : ℕ × ℕ × ℚ => r.2.1) (fun r => r.2.2) exampleData)
      = exampleData := by decide +kernel
  refine ⟨by simp [accurateParams], fun _ => ?_, by simp [accurateParams]⟩
  rw [hrel]
  exact ⟨example_partitions (days := [0, 5]) rfl (by decide +kernel) (by simp [accurateParams]),
    example_rows (by decide +kernel) (by simp [accurateParams])⟩

/-- The count of day 0 is 2 on average; with epsilon 1 it is wrong by 6 or more with probability `exp (-3)`. -/
example (fmt : ℚ → String) (sigma : ℝ → ℝ → ℝ → ℝ) : ∃ s0 ops bs l, Budget.init 1 0 none none = .ok s0 ∧
    evalCalls sigma (specOf (Budget.step (Budget.run s0 ops).1 .compute).1) (fun _ => exampleEnv firstRng) Prod.fst exampleData 0
      [Call.aggregate (accurateParams .count) (some [0, 1, 5]) (fun r : ℕ × ℕ × ℚ => r.2.1) (fun r => r.2.2)] bs = .ok [l] ∧
    ∃ c ∈ l, c.key = 0 ∧ ∃ law, c.numbers.map Noisy.law = [law] ∧ ∫ v, v ∂law = 2 ∧
      law {v | 6 ≤ |v - 2|} = ENNReal.ofReal (Real.exp (-3)) := by
  obtain ⟨s0, h0⟩ : ∃ s0, Budget.init 1 0 none none = .ok s0 := by norm_num [Budget.init]
  obtain ⟨ops, bs, l, -, h2, h3, -, h4⟩ := C91_count_is_accurate fmt sigma (l0 := 2) (linf := 1)
    (key := fun r : ℕ × ℕ × ℚ => r.2.1) (value := fun r => r.2.2) (accurateParams_supported (.inl rfl)) rfl rfl rfl rfl rfl h0
    (exampleEnv firstRng) (exampleEnv_lawful _).backend (exampleEnv_lawful _).combine Prod.fst exampleData
    (accurateParams_within .count)
  obtain ⟨c, hc, hk⟩ := List.mem_map.mp ((h3 0).mpr (by simp))
  obtain ⟨law, h5, h6⟩ := h4 c hc
  have hn : (exampleData.filter fun r => r.2.1 = c.key).length = 2 := by rw [hk]; decide +kernel
  rw [hn] at h6
  refine ⟨s0, ops, bs, l, h0, h2, c, hc, hk, law, h5, by simpa using h6.mean, ?_⟩
  have h7 := h6.error 6 (by norm_num)
  push_cast at h7
  rw [h7]
  congr 2
  norm_num

/-- The number of users of day 0 is 2 on average, its sum is 12. -/
example (fmt : ℚ → String) (sigma : ℝ → ℝ → ℝ → ℝ) (s0) (h0 : Budget.init 1 0 none none = .ok s0) :
    ∃ ops bs ops' bs' l l', evalCalls sigma (specOf (Budget.step (Budget.run s0 ops).1 .compute).1) (fun _ => exampleEnv firstRng)
      Prod.fst exampleData 0 [Call.aggregate (accurateParams .privacyIdCount) (some [0, 1, 5]) (fun r : ℕ × ℕ × ℚ => r.2.1)
        (fun r => r.2.2)] bs = .ok [l] ∧
    evalCalls sigma (specOf (Budget.step (Budget.run s0 ops').1 .compute).1) (fun _ => exampleEnv firstRng) Prod.fst exampleData 0
      [Call.aggregate (accurateParams .sum) (some [0, 1, 5]) (fun r : ℕ × ℕ × ℚ => r.2.1) (fun r => r.2.2)] bs' = .ok [l'] ∧
    (∃ c ∈ l, c.key = 0 ∧ ∃ law, c.numbers.map Noisy.law = [law] ∧ ∫ v, v ∂law = 2) ∧
    (∃ c ∈ l', c.key = 0 ∧ ∃ law, c.numbers.map Noisy.law = [law] ∧ ∫ v, v ∂law = 12) := by
  obtain ⟨ops, bs, l, -, h2, h3, -, h4⟩ := C91_privacy_id_count_is_accurate fmt sigma (l0 := 2) (linf := 1)
    (key := fun r : ℕ × ℕ × ℚ => r.2.1) (value := fun r => r.2.2) (accurateParams_supported (.inr (.inl rfl))) rfl rfl rfl rfl rfl
    rfl h0 (exampleEnv firstRng) (exampleEnv_lawful _).backend (exampleEnv_lawful _).combine Prod.fst exampleData
    (accurateParams_within _)
  obtain ⟨ops', bs', l', -, h2', h3', -, h4'⟩ := C91_sum_is_accurate fmt sigma (l0 := 2) (linf := 1) (lo := 0) (hi := 10)
    (key := fun r : ℕ × ℕ × ℚ => r.2.1) (value := fun r => r.2.2) (accurateParams_supported (.inr (.inr (.inl rfl)))) rfl rfl rfl rfl
    rfl rfl rfl h0 (exampleEnv firstRng) (exampleEnv_lawful _).backend (exampleEnv_lawful _).combine Prod.fst exampleData
    (accurateParams_within _)
  refine ⟨ops, bs, ops', bs', l, l', h2, h2', ?_, ?_⟩
  · obtain ⟨c, hc, hk⟩ := List.mem_map.mp ((h3 0).mpr (by simp))
    obtain ⟨law, h5, h6⟩ := h4 c hc
    have hn : ((exampleData.filter fun r => r.2.1 = c.key).map Prod.fst).dedup.length = 2 := by rw [hk]; decide +kernel
    rw [hn] at h6
    exact ⟨c, hc, hk, law, h5, by simpa using h6.mean⟩
  · obtain ⟨c, hc, hk⟩ := List.mem_map.mp ((h3' 0).mpr (by simp))
    obtain ⟨law, h5, h6⟩ := h4' c hc
    have hn : ((exampleData.filter fun r => r.2.1 = c.key).map fun r => min (max r.2.2 0) 10).sum = 12 := by
      rw [hk]; decide +kernel
    rw [hn] at h6
    exact ⟨c, hc, hk, law, h5, by simpa using h6.mean⟩

/-- The mean of day 0 is 6.  With epsilon 100 it is wrong by more than 10 (here `a = 1`, `b = 5`) with probability at most
`exp (-25) + exp (-25)`. -/
example (fmt : ℚ → String) (sigma : ℝ → ℝ → ℝ → ℝ) (s0) (h0 : Budget.init 100 0 none none = .ok s0) :
    ∃ ops bs l, evalCalls sigma (specOf (Budget.step (Budget.run s0 ops).1 .compute).1) (fun _ => exampleEnv firstRng) Prod.fst
      exampleData 0 [Call.aggregate (accurateParams .mean) (some [0, 1, 5]) (fun r : ℕ × ℕ × ℚ => r.2.1) (fun r => r.2.2)] bs
        = .ok [l] ∧
    ∃ c ∈ l, c.key = 0 ∧ ∃ count sum, c.numbers.map Noisy.law = [count, sum] ∧
      (count.prod sum) {x | 10 < |meanFrom 0 10 x - 6|} ≤ ENNReal.ofReal (Real.exp (-25)) + ENNReal.ofReal (Real.exp (-25)) := by
  obtain ⟨ops, bs, l, -, h2, h3, h4⟩ := C91_mean_is_accurate fmt sigma (l0 := 2) (linf := 1) (lo := 0) (hi := 10)
    (key := fun r : ℕ × ℕ × ℚ => r.2.1) (value := fun r => r.2.2) (accurateParams_supported (.inr (.inr (.inr rfl)))) rfl rfl rfl rfl
    rfl rfl rfl h0 (exampleEnv firstRng) (exampleEnv_lawful _).backend (exampleEnv_lawful _).combine Prod.fst exampleData
    (accurateParams_within _)
  refine ⟨ops, bs, l, h2, ?_⟩
  obtain ⟨c, hc, hk⟩ := List.mem_map.mp ((h3 0).mpr (by simp))
  obtain ⟨μ, ν, h5, h6⟩ := h4 c hc
  have hn : (exampleData.filter fun r => r.2.1 = c.key).length = 2 := by rw [hk]; decide +kernel
  have hv : averageOf ((exampleData.filter fun r => r.2.1 = c.key).map fun r => min (max r.2.2 0) 10) = 6 := by
    rw [hk]; decide +kernel
  rw [hn, hv] at h6
  refine ⟨c, hc, hk, μ, ν, h5, ?_⟩
  have h7 := h6 1 5 (by norm_num) (by norm_num) (by norm_num)
  norm_num at h7 ⊢
  exact h7

/-- The numbers of the four calls of `exampleCalls` (MEAN with COUNT for private days, SUM with a thresholded PRIVACY_ID_COUNT,
VARIANCE with Gaussian noise for public days, selected days) are accurate. -/
example (fmt : ℚ → String) (s0) (h0 : Budget.init 1 (1 / 1000) none (some [1, 2, 2, 1]) = .ok s0) : ∃ bs ops L,
    planCalls fmt [] exampleCalls = .ok (bs, ops) ∧
    evalCalls (fun _ _ x => x) (specOf (Budget.step (Budget.run s0 ops).1 .compute).1) (fun _ => exampleEnv firstRng) Prod.fst
      exampleData 0 exampleCalls bs = .ok L ∧ L.length = 4 := by
  obtain ⟨bs, ops, L, h1, h2, -, h3, h4⟩ := C91_results_are_accurate fmt (fun _ _ x => x) (fun _ _ _ _ _ h => h) exampleCalls
    exampleCalls_supported (by
      intro p pub key value h
      simp only [exampleCalls, List.mem_cons, List.not_mem_nil, or_false, Call.aggregate.injEq, reduceCtorEq] at h
      rcases h with ⟨rfl, -⟩ | ⟨rfl, -⟩ | ⟨rfl, -⟩ <;> simp [examplePrivate, exampleThresholded, exampleVariance])
    h0 (fun _ => by norm_num) ⟨by simp, by intro l hl; cases hl; rfl⟩ (fun _ => exampleEnv firstRng)
    (fun _ => (exampleEnv_lawful _).backend) (fun _ => (exampleEnv_lawful _).combine) Prod.fst exampleData exampleData_within
  refine ⟨bs, ops, L, h1, h3, ?_⟩
  rw [← h4.length_eq, List.length_zip, h2]
  rfl

/-- With epsilon 1 all three counts, numbers of users and sums are wrong by less than 10 with these probabilities. -/
example (fmt : ℚ → String) (lib : Library) (s0) (h0 : Budget.init 1 0 none none = .ok s0) : ∃ l l' l'' : List (Candidate ℕ),
    observedLaw lib (firstCall [0, 1, 5]) {(0, 0)} [l]
        (allWithin [0, 1, 5] (fun k => ((exampleData.filter fun r => r.2.1 = k).length : ℝ)) 10)
      = ENNReal.ofReal ((1 - Real.exp (-5)) ^ 3) ∧
    observedLaw lib (firstCall [0, 1, 5]) {(0, 0)} [l']
        (allWithin [0, 1, 5] (fun k => (((exampleData.filter fun r => r.2.1 = k).map Prod.fst).dedup.length : ℝ)) 10)
      = ENNReal.ofReal ((1 - Real.exp (-5)) ^ 3) ∧
    observedLaw lib (firstCall [0, 1, 5]) {(0, 0)} [l'']
        (allWithin [0, 1, 5] (fun k => ((((exampleData.filter fun r => r.2.1 = k).map fun r => min (max r.2.2 0) 10).sum : ℚ) : ℝ)) 10)
      = ENNReal.ofReal ((1 - Real.exp (-(1 / 2))) ^ 3) := by
  have hcard : ([0, 1, 5] : List ℕ).dedup.length = 3 := by decide
  obtain ⟨ops, bs, l, -, -, h3, -⟩ := C91_all_counts_at_once fmt lib (l0 := 2) (linf := 1)
    (key := fun r : ℕ × ℕ × ℚ => r.2.1) (value := fun r => r.2.2) (accurateParams_supported (.inl rfl)) rfl rfl rfl rfl rfl h0
    (exampleEnv firstRng) (exampleEnv_lawful _).backend (exampleEnv_lawful _).combine Prod.fst exampleData (accurateParams_within _)
  obtain ⟨ops', bs', l', -, -, h3', -⟩ := C91_all_privacy_id_counts_at_once fmt lib (l0 := 2) (linf := 1)
    (key := fun r : ℕ × ℕ × ℚ => r.2.1) (value := fun r => r.2.2) (accurateParams_supported (.inr (.inl rfl))) rfl rfl rfl rfl rfl
    rfl h0 (exampleEnv firstRng) (exampleEnv_lawful _).backend (exampleEnv_lawful _).combine Prod.fst exampleData
    (accurateParams_within _)
  obtain ⟨ops'', bs'', l'', -, -, h3'', -⟩ := C91_all_sums_at_once fmt lib (l0 := 2) (linf := 1) (lo := 0) (hi := 10)
    (key := fun r : ℕ × ℕ × ℚ => r.2.1) (value := fun r => r.2.2) (accurateParams_supported (.inr (.inr (.inl rfl)))) rfl rfl rfl rfl
    rfl rfl rfl h0 (exampleEnv firstRng) (exampleEnv_lawful _).backend (exampleEnv_lawful _).combine Prod.fst exampleData
    (accurateParams_within _)
  refine ⟨l, l', l'', (h3 10 (by norm_num)).trans ?_, (h3' 10 (by norm_num)).trans ?_, (h3'' 10 (by norm_num)).trans ?_⟩
  · rw [hcard]; norm_num
  · rw [hcard]; norm_num
  · rw [hcard]; norm_num

/-- VARIANCE of values between 0 and 10 on days 0, 1 and 5. -/
theorem accurateParams_variance : SupportedAggregate (accurateParams .variance) (some [0, 1, 5] : Option (List ℕ)) where
  bounds := .inr ⟨2, 1, by norm_num, by norm_num, rfl, rfl, rfl⟩
  weight := by norm_num [accurateParams]
  metrics := by simp [accurateParams]
  ids := fun _ => rfl
  sum := fun _ _ _ => .inl ⟨0, 10, rfl, rfl, by norm_num, by norm_num, rfl⟩
  mean := fun _ _ => ⟨0, 10, rfl, rfl, by norm_num⟩
  variance := fun _ => ⟨⟨0, 10, rfl, rfl, by norm_num, by norm_num [SquaresCovered]⟩, rfl⟩
  thresholding := by simp [accurateParams]
  hidden := by simp

/-- The variance of day 0 (values 3 and 9) is 9.  With `a = 1`, `b = 5` and `g = 25` the errors of the mean and of the mean square
are at most 10 and 50. -/
example (fmt : ℚ → String) (sigma : ℝ → ℝ → ℝ → ℝ) (s0) (h0 : Budget.init 300 0 none none = .ok s0) :
    ∃ ops bs l, evalCalls sigma (specOf (Budget.step (Budget.run s0 ops).1 .compute).1) (fun _ => exampleEnv firstRng) Prod.fst
      exampleData 0 [Call.aggregate (accurateParams .variance) (some [0, 1, 5]) (fun r : ℕ × ℕ × ℚ => r.2.1) (fun r => r.2.2)] bs
        = .ok [l] ∧
    ∃ c ∈ l, c.key = 0 ∧ ∃ count sum squares, c.numbers.map Noisy.law = [count, sum, squares] ∧
      (count.prod (sum.prod squares)) {x | 250 < |varianceFrom x - 9|} ≤ ENNReal.ofReal (Real.exp (-50))
        + ENNReal.ofReal (Real.exp (-50)) + ENNReal.ofReal (Real.exp (-25)) := by
  obtain ⟨ops, bs, l, -, h2, h3, h4⟩ := C91_variance_is_accurate fmt sigma (l0 := 2) (linf := 1) (lo := 0) (hi := 10)
    (key := fun r : ℕ × ℕ × ℚ => r.2.1) (value := fun r => r.2.2) accurateParams_variance rfl rfl rfl rfl
    rfl rfl rfl h0 (exampleEnv firstRng) (exampleEnv_lawful _).backend (exampleEnv_lawful _).combine Prod.fst exampleData
    (accurateParams_within _)
  refine ⟨ops, bs, l, h2, ?_⟩
  obtain ⟨c, hc, hk⟩ := List.mem_map.mp ((h3 0).mpr (by simp))
  obtain ⟨μ, ν, ρ, h5, h6⟩ := h4 c hc
  have hn : (exampleData.filter fun r => r.2.1 = c.key).length = 2 := by rw [hk]; decide +kernel
  have hv : varianceOf ((exampleData.filter fun r => r.2.1 = c.key).map fun r => min (max r.2.2 0) 10) = 9 := by
    rw [hk]; decide +kernel
  have hq : squaresLength 0 10 = 100 := by norm_num [squaresLength]
  rw [hn, hv, hq] at h6
  refine ⟨c, hc, hk, μ, ν, ρ, h5, ?_⟩
  have h7 := h6 1 5 25 5 10 50 (by norm_num) (by norm_num) (by norm_num) (by norm_num) (by norm_num) (by norm_num) (by norm_num)
  norm_num at h7 ⊢
  exact h7

end PDP.EndToEnd
