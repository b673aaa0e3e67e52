import Verif.EndToEnd.LossProps
import Verif.EndToEnd.Unselected
import Verif.EndToEnd.CallsExample

/-!
# Concrete cases for C80
-/

namespace PDP.EndToEnd

open PDP PDP.Engine PDP.Approx MeasureTheory
open PDP.Engine.AddNoise (specOf)

/-- COUNT, SUM and PRIVACY_ID_COUNT with bounds enforced by the engine. -/
def tightParams : Params where
  metrics := [.count, .sum, .privacyIdCount]
  maxPartitions := some 2
  maxPerPartition := some 3
  minValue := some (-4)
  maxValue := some 1

/-- VARIANCE of values between -1 and 1. -/
def varianceParams : Params where
  metrics := [.variance]
  maxPartitions := some 1
  maxPerPartition := some 2
  minValue := some (-1)
  maxValue := some 1

/-- SUM with bounds per partition, where the caller promises at most four rows of a user per partition. -/
def enforcedParams : Params where
  metrics := [.count, .sum]
  maxPartitions := some 2
  maxPerPartition := some 4
  minSum := some 0
  maxSum := some 10
  boundsEnforced := true

theorem tightParams_computable : Computable tightParams := by
  refine ⟨Or.inr ⟨2, 3, by decide, by decide, rfl, rfl, rfl⟩, rfl, by simp [tightParams], by simp [tightParams],
    by simp [tightParams], rfl, fun _ => rfl, Or.inr rfl, by simp [tightParams],
    fun _ _ _ => Or.inl ⟨-4, 1, rfl, rfl, by norm_num, by norm_num⟩, by simp [tightParams], by simp [tightParams]⟩

theorem varianceParams_computable : Computable varianceParams := by
  refine ⟨Or.inr ⟨1, 2, by decide, by decide, rfl, rfl, rfl⟩, rfl, by simp [varianceParams], by simp [varianceParams],
    by simp [varianceParams], rfl, fun _ => rfl, Or.inr rfl, by simp [varianceParams], by simp [varianceParams],
    by simp [varianceParams], fun _ => ⟨⟨-1, 1, rfl, rfl, by norm_num⟩, rfl⟩⟩

theorem enforcedParams_computable : Computable enforcedParams := by
  refine ⟨Or.inr ⟨2, 4, by decide, by decide, rfl, rfl, rfl⟩, rfl, by simp [enforcedParams], by simp [enforcedParams],
    by simp [enforcedParams], rfl, by simp [enforcedParams], Or.inl rfl, ?_,
    fun _ _ _ => Or.inr ⟨0, 10, rfl, rfl, by norm_num, by norm_num, by norm_num, rfl⟩, by simp [enforcedParams],
    by simp [enforcedParams]⟩
  intro lo hi h1 h2
  cases h1; cases h2
  norm_num

/-- The loss of VARIANCE is 4/3 of the budget, that of COUNT and SUM with enforced bounds 5/2 of it. -/
example : excess tightParams = 0 ∧ budgetParts tightParams = 3 ∧ excess varianceParams = 1 / 3 ∧ budgetParts varianceParams = 1 ∧
    excess enforcedParams = 3 ∧ budgetParts enforcedParams = 2 := by
  refine ⟨?_, rfl, ?_, rfl, ?_, rfl⟩
  · simp [excess, tightParams, Params.sumBoundsSet]
  · norm_num [excess, varianceParams, squaresLength]
  · have h1 : Metric.variance ∉ enforcedParams.metrics := by simp [enforcedParams]
    have h2 : Metric.mean ∉ enforcedParams.metrics := by simp [enforcedParams]
    rw [excess, if_neg h1, if_neg h2, if_pos ⟨by simp [enforcedParams], rfl, rfl⟩]
    norm_num [enforcedParams]

theorem varianceParams_defective : Defective varianceParams :=
  Or.inl ⟨by simp [varianceParams], by norm_num [SquaresCovered, varianceParams]⟩

theorem enforcedParams_defective : Defective enforcedParams :=
  Or.inr ⟨by simp [enforcedParams], by simp [enforcedParams], by simp [enforcedParams], rfl, rfl, by decide⟩

/-- The rows of the worst user. -/
example : (worstRows tightParams 7 [0, 5] : List (ℕ × ℕ × ℚ))
      = [(7, 0, -4), (7, 0, -4), (7, 0, -4), (7, 5, -4), (7, 5, -4), (7, 5, -4)] ∧
    (worstRows enforcedParams 7 [0] : List (ℕ × ℕ × ℚ)) = [(7, 0, 10), (7, 0, 10), (7, 0, 10), (7, 0, 10)] := by
  refine ⟨by decide +kernel, by decide +kernel⟩

theorem announced_none {R K : Type} (cs : List (Call R K)) : AnnouncedCalls none none cs :=
  ⟨fun _ hn => (nomatch hn), fun _ hl => (nomatch hl)⟩

/-- The hypotheses of the four theorems hold for these parameters with total epsilon 1 and three public partitions. -/
example (fmt : ℚ → String) (u : ℕ) : ∃ s0, Budget.init 1 0 none none = .ok s0 ∧
    ∃ bs ops, planCalls fmt [] [(publicCall tightParams [0, 5, 9] : Call (ℕ × ℕ × ℚ) ℕ)] = .ok (bs, ops) ∧
      (Budget.step (Budget.run s0 ops).1 .compute).2 = .unit ∧
      let s := specOf (Budget.step (Budget.run s0 ops).1 .compute).1
      ∃ L L', evalCalls exampleLibrary.sigma s (fun _ => exampleEnv firstRng) Prod.fst (worstRows tightParams u [0, 5]) 0
            [publicCall tightParams [0, 5, 9]] bs = .ok L ∧
        evalCalls exampleLibrary.sigma s (fun _ => exampleEnv firstRng) Prod.fst (removeId Prod.fst u (worstRows tightParams u [0, 5])) 0
            [publicCall tightParams [0, 5, 9]] bs = .ok L' ∧
        ∀ e' : ℝ, (∀ U S, Indist e' 0 (observedLaw exampleLibrary U S L) (observedLaw exampleLibrary U S L')) ↔ ((1 : ℚ) : ℝ) ≤ e' := by
  obtain ⟨s0, h0⟩ : ∃ s0, Budget.init 1 0 none none = .ok s0 := by norm_num [Budget.init]
  exact ⟨s0, h0, C80_promised_epsilon_is_attained fmt exampleLibrary exampleLibrary_contract tightParams_computable
    (by simp [tightParams]) (by simp [tightParams]) h0 u (by decide) (by decide) rfl (announced_none _)
    (fun _ => exampleEnv firstRng) fun _ => exampleEnv_lawful _⟩

example (fmt : ℚ → String) (lib : Library) (u : ℕ) (p : Params) (hp : p = varianceParams ∨ p = enforcedParams) :
    ∃ s0 ks, Budget.init 1 0 none none = .ok s0 ∧
    ∃ bs ops, planCalls fmt [] [(publicCall p [0, 5, 9] : Call (ℕ × ℕ × ℚ) ℕ)] = .ok (bs, ops) ∧
      let s := specOf (Budget.step (Budget.run s0 ops).1 .compute).1
      ∃ L L', evalCalls lib.sigma s (fun _ => exampleEnv firstRng) Prod.fst (worstRows p u ks) 0 [publicCall p [0, 5, 9]] bs = .ok L ∧
        evalCalls lib.sigma s (fun _ => exampleEnv firstRng) Prod.fst (removeId Prod.fst u (worstRows p u ks)) 0
          [publicCall p [0, 5, 9]] bs = .ok L' ∧
        ∃ (U : Finset (ℕ × ℕ)) (S : Finset (ℕ × ℕ)) (γ : ℝ), 0 < γ ∧ ∀ d' : ℝ, 0 ≤ d' → d' < γ →
          ¬ Indist ((1 : ℚ) : ℝ) d' (observedLaw lib U S L) (observedLaw lib U S L') := by
  obtain ⟨s0, h0⟩ : ∃ s0, Budget.init 1 0 none none = .ok s0 := by norm_num [Budget.init]
  rcases hp with rfl | rfl
  · obtain ⟨-, bs, ops, h1, -, h2⟩ := C80_defects_break_privacy fmt lib varianceParams_computable varianceParams_defective h0 u
      (ps := [0, 5, 9]) (ks := [0]) (by decide) (by decide) rfl (announced_none _) (fun _ => exampleEnv firstRng)
      fun _ => exampleEnv_lawful _
    exact ⟨s0, [0], h0, bs, ops, h1, h2⟩
  · obtain ⟨-, bs, ops, h1, -, h2⟩ := C80_defects_break_privacy fmt lib enforcedParams_computable enforcedParams_defective h0 u
      (ps := [0, 5, 9]) (ks := [0, 5]) (by decide) (by decide) rfl (announced_none _) (fun _ => exampleEnv firstRng)
      fun _ => exampleEnv_lawful _
    exact ⟨s0, [0, 5], h0, bs, ops, h1, h2⟩

/-- `public_partitions_already_filtered=True` without public partitions. -/
def filteredParams : Params where
  metrics := [.count]
  maxPartitions := some 1
  maxPerPartition := some 1
  publicFiltered := true

example (fmt : ℚ → String) (lib : Library) : ∃ s0, Budget.init 1 0 none none = .ok s0 ∧
    ∃ bs ops, planCalls fmt [] [(.aggregate filteredParams none (fun r => r.2.1) (fun r => r.2.2) : Call (ℕ × ℕ × ℚ) ℕ)]
        = .ok (bs, ops) ∧
      let s := specOf (Budget.step (Budget.run s0 ops).1 .compute).1
      let data : List (ℕ × ℕ × ℚ) := [(1, 0, 0), (2, 0, 0), (3, 8, 0)]
      ∃ L L', evalCalls lib.sigma s (fun _ => exampleEnv firstRng) Prod.fst data 0
            [.aggregate filteredParams none (fun r => r.2.1) (fun r => r.2.2)] bs = .ok L ∧
        evalCalls lib.sigma s (fun _ => exampleEnv firstRng) Prod.fst (removeId Prod.fst 3 data) 0
            [.aggregate filteredParams none (fun r => r.2.1) (fun r => r.2.2)] bs = .ok L' ∧
        ∀ e' d' : ℝ, Indist e' d' (observedLaw lib {(0, 8)} ∅ L) (observedLaw lib {(0, 8)} ∅ L') → 1 ≤ d' := by
  obtain ⟨s0, h0⟩ : ∃ s0, Budget.init 1 0 none none = .ok s0 := by norm_num [Budget.init]
  have hw : (Call.aggregate filteredParams none (fun r : ℕ × ℕ × ℚ => r.2.1) (fun r => r.2.2)).Within Prod.fst
      [(1, 0, 0), (2, 0, 0), (3, 8, 0)] := by
    refine ⟨fun _ ps h => (nomatch h), fun _ => ⟨fun u => ⟨fun m hm => (nomatch hm), fun _ l0 hl => ?_⟩, fun u k linf hl => ?_⟩,
      fun h => absurd rfl h⟩
    · cases hl
      simp only [partitionsOf, relevant, extract, List.map_cons, List.map_nil, List.filter_cons, List.filter_nil, decide_eq_true_eq]
      by_cases h1 : (1 : ℕ) = u
      · subst h1; decide
      · by_cases h2 : (2 : ℕ) = u
        · subst h2; decide
        · by_cases h3 : (3 : ℕ) = u
          · subst h3; decide
          · simp [h1, h2, h3]
    · cases hl
      simp only [relevant, extract, cell, List.map_cons, List.map_nil, List.filter_cons, List.filter_nil, decide_eq_true_eq]
      by_cases h1 : (1 : ℕ) = u
      · subst h1; simp; split <;> simp
      · by_cases h2 : (2 : ℕ) = u
        · subst h2; simp; split <;> simp
        · by_cases h3 : (3 : ℕ) = u
          · subst h3; simp; split <;> simp
          · simp [h1, h2, h3]
  obtain ⟨bs, ops, h1, -, h2⟩ := C80_unselected_partitions_reveal_users fmt lib (p := filteredParams)
    (key := fun r : ℕ × ℕ × ℚ => r.2.1) (value := fun r => r.2.2)
    ⟨Or.inr ⟨1, 1, by decide, by decide, rfl, rfl, rfl⟩, by simp [filteredParams], by simp [filteredParams],
      by simp [filteredParams], by simp [filteredParams], by simp [filteredParams], by simp [filteredParams],
      by simp [filteredParams], by simp⟩ (by simp [filteredParams]) rfl h0 (by simp [filteredParams])
    (announced_none _) (fun _ => exampleEnv firstRng) (fun _ => exampleEnv_lawful _) Prod.fst
    [(1, 0, 0), (2, 0, 0), (3, 8, 0)] hw
    3 8 (by simp) (by simp)
  exact ⟨s0, h0, bs, ops, h1, h2⟩

end PDP.EndToEnd
