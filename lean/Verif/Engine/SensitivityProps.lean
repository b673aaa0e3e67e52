import Verif.Engine.Sensitivity
import Mathlib.Tactic.FieldSimp
import Mathlib.Tactic.NormNum

/-! # Properties C14–C18, continued: examples, MEAN, VARIANCE, VECTOR_SUM and defects -/

set_option linter.unusedSectionVars false
set_option linter.unusedVariables false

namespace PDP.Engine

open PDP

variable {P K V A : Type} [DecidableEq P] [DecidableEq K]

/-! ### non-vacuity -/

/-- Two users; user 1 has three rows in partition 1 and one in partition 2. -/
def demoRows : List (ℕ × ℕ × ℚ) := [(1, 1, 5), (1, 1, -3), (2, 1, 1), (1, 1, 2), (1, 2, 7), (2, 2, 4)]

def demoParams : Params :=
  { metrics := [.count, .sum], maxPartitions := some 1, maxPerPartition := some 2,
    minValue := some (-1), maxValue := some 4 }

theorem demoParams_valid : demoParams.BoundsValid :=
  Or.inr ⟨1, 2, le_refl _, by decide, rfl, rfl, rfl⟩

theorem demo_keeps (u : ℕ) : CallerKeepsBounds demoParams u demoRows := by
  constructor <;> intro h <;> exact absurd h (by decide)

/-- The hypotheses of C14 and C16 hold for a concrete run. -/
example := C14_count_sensitivity (localBackend firstRng) (C39_local_backend_lawful _)
  (localBackend_keyLocal _) demoParams demoParams_valid [Combiner.count ℚ, Combiner.sumPerValue (-1) 4]
  ⟨0, by decide⟩ rfl none demoRows 1 (demo_keeps 1)

example := C16_sum_per_value_sensitivity (localBackend firstRng) (C39_local_backend_lawful _)
  (localBackend_keyLocal _) demoParams demoParams_valid (-1) 4 rfl rfl (by norm_num) (by norm_num)
  [Combiner.count ℚ, Combiner.sumPerValue (-1) 4] ⟨1, by decide⟩ rfl none demoRows 1 (demo_keeps 1)

example := C15_privacy_id_count_sensitivity (localBackend firstRng) (C39_local_backend_lawful _)
  (localBackend_keyLocal _) demoParams demoParams_valid rfl [Combiner.privacyIdCount ℚ]
  ⟨0, by decide⟩ rfl (some [1, 3]) demoRows 1 (demo_keeps 1)

/-- In this run user 1 changes the count of partition 1 by two (and its sum by 4 + (-1)). -/
example :
    accumulators (localBackend firstRng) demoParams true (Combiner.count ℚ).create none demoRows
      = .ok [(1, (2 : ℕ)), (1, (1 : ℕ))] ∧
    accumulators (localBackend firstRng) demoParams true (Combiner.count ℚ).create none (without 1 demoRows)
      = .ok [(1, (1 : ℕ))] := by
  constructor <;> rfl

/-! ### SUM: rejected parameters and a defect -/

/-- **C16.** If both value bounds are 0, building the SUM mechanism raises `ValueError`. -/
theorem C16_zero_bounds_rejected (p : Params) (hp : p.BoundsValid) (hlo : p.minValue = some 0)
    (hhi : p.maxValue = some 0) : sensSum p = .error .valueError := by
  rcases hp with ⟨m, hm, e1, e2, e3⟩ | ⟨l0, linf, h0, hi, e1, e2, e3⟩
  · have : m ≠ 0 := by omega
    simp [sensSum, Params.valueBoundsSet, hlo, hhi, num, natNum, e1, this, bind, Except.bind, mkSens,
      positiveOrNone]
  · simp [sensSum, Params.valueBoundsSet, hlo, hhi, num, natNum, e1, e2, e3, bind, Except.bind, mkSens,
      positiveOrNone]

/-- **C14–C16.** `compute_sensitivities` gives, for COUNT, sensitivities that cover the change caused by one id; for
PRIVACY_ID_COUNT and SUM see the next theorems; other metrics are rejected. -/
theorem C14_compute_sensitivities_count (B : Backend) (hB : B.Lawful) (hK : B.KeyLocal) (p : Params)
    (hp : p.BoundsValid) (cs : List (Combiner V)) (i : Fin cs.length) (hc : cs[i] = Combiner.count V)
    (pub : Option (List K)) (col : List (P × K × V)) (u : P) (hu : CallerKeepsBounds p u col) :
    ∃ a a' s,
      accumulators B p (Combiner.compound cs).sampling (Combiner.compound cs).create pub col = .ok a ∧
      accumulators B p (Combiner.compound cs).sampling (Combiner.compound cs).create pub (without u col) = .ok a' ∧
      computeSensitivities .count p = .ok s ∧
      s.Covers fun k =>
        partitionTotal (fun x => ((show ℕ from Combiner.readAs _ i hc x : ℕ) : ℚ)) a k
        - partitionTotal (fun x => ((show ℕ from Combiner.readAs _ i hc x : ℕ) : ℚ)) a' k :=
  C14_count_sensitivity B hB hK p hp cs i hc pub col u hu

/-- **C15.** `compute_sensitivities` for PRIVACY_ID_COUNT. -/
theorem C15_compute_sensitivities_privacy_id_count (B : Backend) (hB : B.Lawful) (hK : B.KeyLocal) (p : Params)
    (hp : p.BoundsValid) (he : p.boundsEnforced = false)
    (cs : List (Combiner V)) (i : Fin cs.length) (hc : cs[i] = Combiner.privacyIdCount V)
    (pub : Option (List K)) (col : List (P × K × V)) (u : P) (hu : CallerKeepsBounds p u col) :
    ∃ a a' s,
      accumulators B p (Combiner.compound cs).sampling (Combiner.compound cs).create pub col = .ok a ∧
      accumulators B p (Combiner.compound cs).sampling (Combiner.compound cs).create pub (without u col) = .ok a' ∧
      computeSensitivities .privacyIdCount p = .ok s ∧
      s.Covers fun k =>
        partitionTotal (fun x => ((show ℕ from Combiner.readAs _ i hc x : ℕ) : ℚ)) a k
        - partitionTotal (fun x => ((show ℕ from Combiner.readAs _ i hc x : ℕ) : ℚ)) a' k := by
  have h : computeSensitivities .privacyIdCount p = sensPrivacyIdCount p := by
    unfold computeSensitivities
    rw [if_neg (by decide), if_pos rfl]
  rw [h]
  exact C15_privacy_id_count_sensitivity B hB hK p hp he cs i hc pub col u hu

/-- **C16.** `compute_sensitivities` for SUM with bounds on values; any other metric than these three is rejected. -/
theorem C16_compute_sensitivities_sum (B : Backend) (hB : B.Lawful) (hK : B.KeyLocal) (p : Params)
    (hp : p.BoundsValid) (lo hi : ℚ) (hlo : p.minValue = some lo) (hhi : p.maxValue = some hi) (hle : lo ≤ hi)
    (h0 : ¬(lo = 0 ∧ hi = 0)) (cs : List (Combiner ℚ)) (i : Fin cs.length)
    (hc : cs[i] = Combiner.sumPerValue lo hi)
    (pub : Option (List K)) (col : List (P × K × ℚ)) (u : P) (hu : CallerKeepsBounds p u col) :
    (∃ a a' s,
      accumulators B p (Combiner.compound cs).sampling (Combiner.compound cs).create pub col = .ok a ∧
      accumulators B p (Combiner.compound cs).sampling (Combiner.compound cs).create pub (without u col) = .ok a' ∧
      computeSensitivities .sum p = .ok s ∧
      s.Covers fun k =>
        partitionTotal (fun x => (show ℚ from Combiner.readAs _ i hc x)) a k
        - partitionTotal (fun x => (show ℚ from Combiner.readAs _ i hc x)) a' k) ∧
    ∀ m, m ≠ .count → m ≠ .privacyIdCount → m ≠ .sum → computeSensitivities m p = .error .valueError := by
  have h : computeSensitivities .sum p = sensSum p := by
    unfold computeSensitivities
    rw [if_neg (by decide), if_neg (by decide), if_pos rfl]
  refine ⟨?_, fun m h1 h2 h3 => by simp [computeSensitivities, h1, h2, h3]⟩
  rw [h]
  exact C16_sum_per_value_sensitivity B hB hK p hp lo hi hlo hhi hle h0 cs i hc pub col u hu

/-- **C16.** SUM with bounds per partition cannot be combined with `max_contributions`: building the SUM
mechanism raises `ValueError` (although `AggregateParams` accepts the parameters). -/
theorem C16_partition_bounds_need_partition_limits (p : Params) (m : ℕ) (hm : p.maxContributions = some m)
    (h0 : p.maxPartitions = none) (hv : p.minValue = none) (lo hi : ℚ) (hlo : p.minSum = some lo)
    (hhi : p.maxSum = some hi) : sensSum p = .error .valueError := by
  simp only [sensSum, Params.valueBoundsSet, hv, hlo, hhi, num, h0, Option.isSome_none, Bool.false_and,
    Bool.false_eq_true, if_false, bind, Except.bind, Option.map_none, mkSens]
  split <;> rfl

def enforcedParams : Params :=
  { metrics := [.sum], maxPartitions := some 1, maxPerPartition := some 2,
    minSum := some 0, maxSum := some 1, boundsEnforced := true }

/-- **C16, defect.** With `contribution_bounds_already_enforced` and bounds per partition, every row is
clipped on its own, so a user within the declared bounds (2 rows in one partition) changes the sum of
the partition by 2 although the declared sensitivity is 1. -/
theorem C16_per_partition_clipping_broken_if_enforced :
    ∃ (p : Params) (col : List (ℕ × ℕ × ℚ)) (u : ℕ) (s : Sens) (a a' : List (ℕ × ℚ)),
      p.BoundsValid ∧ CallerKeepsBounds p u col ∧ p.minSum = some 0 ∧ p.maxSum = some 1 ∧
      sensSum p = .ok s ∧
      accumulators (localBackend firstRng) p false (Combiner.sumPerPartition 0 1).create none col = .ok a ∧
      accumulators (localBackend firstRng) p false (Combiner.sumPerPartition 0 1).create none (without u col)
        = .ok a' ∧
      ¬ s.Covers fun k => partitionTotal id a k - partitionTotal id a' k := by
  refine ⟨enforcedParams, [(1, 1, 1), (1, 1, 1), (2, 1, 1)], 1, ⟨some 1, some 1, some (l1Sens 1 1), some (l2Sens 1 1)⟩,
    [(1, 1), (1, 1), (1, 1)], [(1, 1)], Or.inr ⟨1, 2, le_refl _, by decide, rfl, rfl, rfl⟩, ⟨?_, ?_⟩, rfl, rfl,
    ?_, ?_, ?_, ?_⟩
  · intro _
    refine ⟨fun m hm => absurd hm (by simp [enforcedParams]), fun l hl => ?_, fun l hl k => ?_⟩
    · simp only [enforcedParams, Option.some.injEq] at hl; subst hl; decide
    · simp only [enforcedParams, Option.some.injEq] at hl; subst hl
      by_cases hk : k = 1
      · subst hk; decide
      · have : cell 1 k ([(1, 1, 1), (1, 1, 1), (2, 1, 1)] : List (ℕ × ℕ × ℚ)) = [] := by
          simp [cell, Ne.symm hk]
        rw [this]; simp
  · intro h; exact absurd h (by decide)
  · have : sensSum enforcedParams = mkSens (some 1) (some 1) none none := by
      simp [sensSum, enforcedParams, Params.valueBoundsSet, num, bind, Except.bind]
    rw [this, mkSens_pair one_pos one_pos]
  · have h : clip 0 1 ([1] : List ℚ).sum = 1 := by decide +kernel
    show Except.ok [(1, clip 0 1 ([1] : List ℚ).sum), (1, clip 0 1 ([1] : List ℚ).sum),
      (1, clip 0 1 ([1] : List ℚ).sum)] = Except.ok _
    rw [h]
  · have h : clip 0 1 ([1] : List ℚ).sum = 1 := by decide +kernel
    show Except.ok [(1, clip 0 1 ([1] : List ℚ).sum)] = Except.ok _
    rw [h]
  · intro h
    have := h.linf 1 rfl 1
    have h2 : partitionTotal id [((1 : ℕ), (1 : ℚ)), (1, 1), (1, 1)] 1 - partitionTotal id [((1 : ℕ), (1 : ℚ))] 1 = 2 := by
      decide +kernel
    rw [h2] at this
    norm_num at this

/-! ### MEAN and VARIANCE -/

theorem abs_normalized_le {lo hi : ℚ} (h : lo ≤ hi) (x : ℚ) :
    |clip lo hi x - middle lo hi| ≤ (hi - lo) / 2 := by
  obtain ⟨h1, h2⟩ := clip_le h x
  unfold middle
  rw [abs_le]
  constructor <;> linarith

/-- **C17.** MEAN: removing one privacy id changes the exact normalised sums of at most
`max_partitions_contributed` partitions, each by at most
`(max_value - min_value) / 2 * max_contributions_per_partition` (or in total by at most
`(max_value - min_value) / 2 * max_contributions`), as declared. -/
theorem C17_mean_normalized_sum_sensitivity (B : Backend) (hB : B.Lawful) (hK : B.KeyLocal) (p : Params)
    (hp : p.BoundsValid) (lo hi : ℚ) (hlo : p.minValue = some lo) (hhi : p.maxValue = some hi) (hlt : lo < hi)
    (cs : List (Combiner ℚ)) (i : Fin cs.length) (hc : cs[i] = Combiner.mean lo hi)
    (pub : Option (List K)) (col : List (P × K × ℚ)) (u : P) (hu : CallerKeepsBounds p u col) :
    ∃ a a' s,
      accumulators B p (Combiner.compound cs).sampling (Combiner.compound cs).create pub col = .ok a ∧
      accumulators B p (Combiner.compound cs).sampling (Combiner.compound cs).create pub (without u col) = .ok a' ∧
      sensNormalizedSum p = .ok s ∧
      s.Covers fun k =>
        partitionTotal (fun x => (show ℕ × ℚ from Combiner.readAs _ i hc x).2) a k
        - partitionTotal (fun x => (show ℕ × ℚ from Combiner.readAs _ i hc x).2) a' k := by
  obtain ⟨a, a', E, h1, h2, h3, hE⟩ := accumulators_change B hB hK p hp (Combiner.compound cs).sampling
    (Combiner.compound cs).create pub col u hu
  have hs := sampling_of_mem cs _ i hc rfl
  let ν : List ℚ → ℚ := fun vs => (vs.map fun v => clip lo hi v - middle lo hi).sum
  have hpos : 0 < (hi - lo) / 2 := by linarith
  obtain ⟨b1, b2, b3⟩ := perValue_bounds hE ν ((hi - lo) / 2) hpos.le
    (abs_sum_map_le _ _ (abs_normalized_le hlt.le))
  have hΔ : ∀ k, partitionTotal (fun x => (show ℕ × ℚ from Combiner.readAs _ i hc x).2) a k
      - partitionTotal (fun x => (show ℕ × ℚ from Combiner.readAs _ i hc x).2) a' k = partitionTotal ν E k := by
    intro k; rw [h3]; simp only [readAs_create]; rfl
  rcases hp with ⟨m, hm, e1, e2, e3⟩ | ⟨l0, linf, hl0, hl, e1, e2, e3⟩
  · have hm' : (0 : ℚ) < m := by exact_mod_cast hm
    obtain ⟨s, hs1, hs2⟩ := covers_norms (c := (hi - lo) / 2 * m) (mul_pos hpos hm')
      (Δ := partitionTotal ν E) (b3 m e1)
    refine ⟨a, a', s, h1, h2, ?_, hs2.of_eq hΔ⟩
    have : m ≠ 0 := by omega
    simpa [sensNormalizedSum, hlo, hhi, num, natNum, e1, this, bind, Except.bind] using hs1
  · have hl' : (0 : ℚ) < linf := by exact_mod_cast hl
    obtain ⟨s, hs1, hs2⟩ := covers_pair (l0 := (l0 : ℚ)) (linf := (hi - lo) / 2 * linf)
      (by exact_mod_cast hl0) (mul_pos hpos hl') (Δ := partitionTotal ν E) (b1 l0 e2)
      (b2 linf e3 (Or.inl hs))
    refine ⟨a, a', s, h1, h2, ?_, hs2.of_eq hΔ⟩
    simpa [sensNormalizedSum, hlo, hhi, num, natNum, e1, e2, e3, bind, Except.bind] using hs1

/-- **C17.** The count inside MEAN has the declared COUNT sensitivities. -/
theorem C17_mean_count_sensitivity (B : Backend) (hB : B.Lawful) (hK : B.KeyLocal) (p : Params)
    (hp : p.BoundsValid) (lo hi : ℚ)
    (cs : List (Combiner ℚ)) (i : Fin cs.length) (hc : cs[i] = Combiner.mean lo hi)
    (pub : Option (List K)) (col : List (P × K × ℚ)) (u : P) (hu : CallerKeepsBounds p u col) :
    ∃ a a' s,
      accumulators B p (Combiner.compound cs).sampling (Combiner.compound cs).create pub col = .ok a ∧
      accumulators B p (Combiner.compound cs).sampling (Combiner.compound cs).create pub (without u col) = .ok a' ∧
      sensCount p = .ok s ∧
      s.Covers fun k =>
        partitionTotal (fun x => ((show ℕ × ℚ from Combiner.readAs _ i hc x).1 : ℚ)) a k
        - partitionTotal (fun x => ((show ℕ × ℚ from Combiner.readAs _ i hc x).1 : ℚ)) a' k := by
  obtain ⟨a, a', E, h1, h2, h3, hE⟩ := accumulators_change B hB hK p hp (Combiner.compound cs).sampling
    (Combiner.compound cs).create pub col u hu
  have hs := sampling_of_mem cs _ i hc rfl
  let ν : List ℚ → ℚ := fun vs => (vs.length : ℚ)
  obtain ⟨b1, b2, b3⟩ := perValue_bounds hE ν 1 (by norm_num) (by intro vs; simp [ν])
  have hΔ : ∀ k, partitionTotal (fun x => ((show ℕ × ℚ from Combiner.readAs _ i hc x).1 : ℚ)) a k
      - partitionTotal (fun x => ((show ℕ × ℚ from Combiner.readAs _ i hc x).1 : ℚ)) a' k
      = partitionTotal ν E k := by
    intro k; rw [h3]; simp only [readAs_create]; rfl
  rcases hp with ⟨m, hm, e1, e2, e3⟩ | ⟨l0, linf, h0, hi', e1, e2, e3⟩
  · obtain ⟨s, hs1, hs2⟩ := covers_norms (c := (m : ℚ)) (by exact_mod_cast hm)
      (Δ := partitionTotal ν E) (fun ks hks => by simpa using b3 m e1 ks hks)
    exact ⟨a, a', s, h1, h2, by simpa [sensCount, e1] using hs1, hs2.of_eq hΔ⟩
  · have hb : ∀ k, |partitionTotal ν E k| ≤ (linf : ℚ) := by
      intro k
      have := b2 linf e3 (Or.inl hs) k
      rwa [one_mul] at this
    obtain ⟨s, hs1, hs2⟩ := covers_pair (l0 := (l0 : ℚ)) (linf := (linf : ℚ)) (by exact_mod_cast h0)
      (by exact_mod_cast hi') (Δ := partitionTotal ν E) (b1 l0 e2) hb
    exact ⟨a, a', s, h1, h2, by simpa [sensCount, e1, e2, e3] using hs1, hs2.of_eq hΔ⟩

theorem randomNoise_covers {l0 linf : ℚ} {Δ : K → ℚ} (h1 : 0 < l0) (h2 : 0 < linf)
    (hn : ∀ ks : List K, ks.Nodup → ((ks.filter fun k => Δ k ≠ 0).length : ℚ) ≤ l0)
    (hm : ∀ k, |Δ k| ≤ linf) : (randomNoiseSens (l0 : ℝ) (linf : ℝ)).Covers Δ := by
  obtain ⟨s, hs, hc⟩ := covers_pair h1 h2 hn hm
  rw [mkSens_pair (by exact_mod_cast h1) (by exact_mod_cast h2)] at hs
  rw [show randomNoiseSens (l0 : ℝ) (linf : ℝ) = s from Except.ok.inj hs]
  exact hc

theorem meanLinf_eq {lo hi : ℚ} (h : lo ≤ hi) (n : ℕ) : meanLinf lo hi n = (hi - lo) / 2 * n := by
  unfold meanLinf middle
  rw [show lo + (hi - lo) / 2 - lo = (hi - lo) / 2 by ring, abs_of_nonneg (by linarith)]; ring

/-- **C17.** VARIANCE: the exact count and normalised sum change by at most the sensitivities used for
their noise.  (`max_contributions` is rejected for VARIANCE.) -/
theorem C17_variance_count_and_sum_sensitivity (B : Backend) (hB : B.Lawful) (hK : B.KeyLocal) (p : Params)
    (l0 linf : ℕ) (h0 : 1 ≤ l0) (hl : 1 ≤ linf) (e1 : p.maxContributions = none) (e2 : p.maxPartitions = some l0)
    (e3 : p.maxPerPartition = some linf) (lo hi : ℚ) (hlt : lo < hi)
    (cs : List (Combiner ℚ)) (i : Fin cs.length) (hc : cs[i] = Combiner.variance lo hi)
    (pub : Option (List K)) (col : List (P × K × ℚ)) (u : P) (hu : CallerKeepsBounds p u col) :
    ∃ a a',
      accumulators B p (Combiner.compound cs).sampling (Combiner.compound cs).create pub col = .ok a ∧
      accumulators B p (Combiner.compound cs).sampling (Combiner.compound cs).create pub (without u col) = .ok a' ∧
      ((varCountSens l0 linf).Covers fun k =>
        partitionTotal (fun x => ((show ℕ × ℚ × ℚ from Combiner.readAs _ i hc x).1 : ℚ)) a k
        - partitionTotal (fun x => ((show ℕ × ℚ × ℚ from Combiner.readAs _ i hc x).1 : ℚ)) a' k) ∧
      ((varSumSens lo hi l0 linf).Covers fun k =>
        partitionTotal (fun x => (show ℕ × ℚ × ℚ from Combiner.readAs _ i hc x).2.1) a k
        - partitionTotal (fun x => (show ℕ × ℚ × ℚ from Combiner.readAs _ i hc x).2.1) a' k) := by
  obtain ⟨a, a', E, h1, h2, h3, hE⟩ := accumulators_change B hB hK p
    (Or.inr ⟨l0, linf, h0, hl, e1, e2, e3⟩) (Combiner.compound cs).sampling
    (Combiner.compound cs).create pub col u hu
  have hs := sampling_of_mem cs _ i hc rfl
  have hl0' : (0 : ℚ) < l0 := by exact_mod_cast h0
  have hl' : (0 : ℚ) < linf := by exact_mod_cast hl
  refine ⟨a, a', h1, h2, ?_, ?_⟩
  · let ν : List ℚ → ℚ := fun vs => (vs.length : ℚ)
    obtain ⟨b1, b2, b3⟩ := perValue_bounds hE ν 1 (by norm_num) (by intro vs; simp [ν])
    refine Sens.Covers.of_eq (Δ' := partitionTotal ν E) ?_ (fun k => by rw [h3]; simp only [readAs_create]; rfl)
    have := randomNoise_covers (l0 := (l0 : ℚ)) (linf := (linf : ℚ)) hl0' hl' (b1 l0 e2)
      (fun k => by have := b2 linf e3 (Or.inl hs) k; rwa [one_mul] at this)
    simpa [varCountSens] using this
  · let ν : List ℚ → ℚ := fun vs => (vs.map fun v => clip lo hi v - middle lo hi).sum
    have hpos : 0 < (hi - lo) / 2 := by linarith
    obtain ⟨b1, b2, b3⟩ := perValue_bounds hE ν ((hi - lo) / 2) hpos.le
      (abs_sum_map_le _ _ (abs_normalized_le hlt.le))
    refine Sens.Covers.of_eq (Δ' := partitionTotal ν E) ?_ (fun k => by rw [h3]; simp only [readAs_create]; rfl)
    have := randomNoise_covers (l0 := (l0 : ℚ)) (linf := meanLinf lo hi linf) hl0'
      (by rw [meanLinf_eq hlt.le]; exact mul_pos hpos hl') (b1 l0 e2)
      (fun k => by rw [meanLinf_eq hlt.le]; exact b2 linf e3 (Or.inl hs) k)
    simpa [varSumSens] using this

/-- The ranges for which the noise of the sum of squares is large enough: ranges that do not contain 0 in
their interior, and ranges that are far from symmetric. -/
def SquaresCovered (lo hi : ℚ) : Prop := ¬(lo < 0 ∧ 0 < hi) ∨ (hi - lo) ^ 2 ≤ 2 * max (lo ^ 2) (hi ^ 2)

theorem squares_linf {lo hi : ℚ} (h : lo < hi) (n : ℕ) :
    SquaresCovered lo hi → ((hi - lo) / 2) ^ 2 * n
      ≤ meanLinf (squaresInterval lo hi).1 (squaresInterval lo hi).2 n := by
  intro hc
  have hn : (0 : ℚ) ≤ n := by positivity
  unfold meanLinf middle squaresInterval
  rw [mul_comm]
  apply mul_le_mul_of_nonneg_left _ hn
  by_cases hz : lo < 0 ∧ 0 < hi
  · rw [if_pos hz]
    rcases hc with hc | hc
    · exact absurd hz hc
    · simp only
      rw [show (0 + (max (lo ^ 2) (hi ^ 2) - 0) / 2 - 0 : ℚ) = max (lo ^ 2) (hi ^ 2) / 2 by ring,
        abs_of_nonneg (by have := le_max_left (lo ^ 2) (hi ^ 2); nlinarith [sq_nonneg lo])]
      nlinarith
  · rw [if_neg hz]
    simp only
    rw [show (lo ^ 2 + (hi ^ 2 - lo ^ 2) / 2 - lo ^ 2 : ℚ) = (hi - lo) * (hi + lo) / 2 by ring]
    by_cases hlo : 0 ≤ lo
    · rw [abs_of_nonneg (by nlinarith)]
      nlinarith
    · have hhi : hi ≤ 0 := by
        by_contra hh
        exact hz ⟨lt_of_not_ge hlo, lt_of_not_ge hh⟩
      rw [abs_of_nonpos (by nlinarith)]
      nlinarith

/-- **C17.** VARIANCE: the exact normalised sums of squares change by at most the sensitivity used for
their noise if the range `[min_value, max_value]` does not contain 0 in its interior or is far from
symmetric. -/
theorem C17_variance_squares_sensitivity (B : Backend) (hB : B.Lawful) (hK : B.KeyLocal) (p : Params)
    (l0 linf : ℕ) (h0 : 1 ≤ l0) (hl : 1 ≤ linf) (e1 : p.maxContributions = none) (e2 : p.maxPartitions = some l0)
    (e3 : p.maxPerPartition = some linf) (lo hi : ℚ) (hlt : lo < hi) (hcov : SquaresCovered lo hi)
    (cs : List (Combiner ℚ)) (i : Fin cs.length) (hc : cs[i] = Combiner.variance lo hi)
    (pub : Option (List K)) (col : List (P × K × ℚ)) (u : P) (hu : CallerKeepsBounds p u col) :
    ∃ a a',
      accumulators B p (Combiner.compound cs).sampling (Combiner.compound cs).create pub col = .ok a ∧
      accumulators B p (Combiner.compound cs).sampling (Combiner.compound cs).create pub (without u col) = .ok a' ∧
      (varSquaresSens lo hi l0 linf).Covers fun k =>
        partitionTotal (fun x => (show ℕ × ℚ × ℚ from Combiner.readAs _ i hc x).2.2) a k
        - partitionTotal (fun x => (show ℕ × ℚ × ℚ from Combiner.readAs _ i hc x).2.2) a' k := by
  obtain ⟨a, a', E, h1, h2, h3, hE⟩ := accumulators_change B hB hK p
    (Or.inr ⟨l0, linf, h0, hl, e1, e2, e3⟩) (Combiner.compound cs).sampling
    (Combiner.compound cs).create pub col u hu
  have hs := sampling_of_mem cs _ i hc rfl
  have hl0' : (0 : ℚ) < l0 := by exact_mod_cast h0
  have hl' : (0 : ℚ) < linf := by exact_mod_cast hl
  refine ⟨a, a', h1, h2, ?_⟩
  let ν : List ℚ → ℚ := fun vs => (vs.map fun v => (clip lo hi v - middle lo hi) ^ 2).sum
  have hpos : 0 < ((hi - lo) / 2) ^ 2 := by
    have : 0 < (hi - lo) / 2 := by linarith
    positivity
  have hsq : ∀ x, |(clip lo hi x - middle lo hi) ^ 2| ≤ ((hi - lo) / 2) ^ 2 := by
    intro x
    rw [abs_of_nonneg (sq_nonneg _)]
    have := abs_le.mp (abs_normalized_le hlt.le x)
    exact sq_le_sq' this.1 this.2
  obtain ⟨b1, b2, b3⟩ := perValue_bounds hE ν (((hi - lo) / 2) ^ 2) hpos.le (abs_sum_map_le _ _ hsq)
  refine Sens.Covers.of_eq (Δ' := partitionTotal ν E) ?_ (fun k => by rw [h3]; simp only [readAs_create]; rfl)
  have hle := squares_linf hlt linf hcov
  have := randomNoise_covers (l0 := (l0 : ℚ))
    (linf := meanLinf (squaresInterval lo hi).1 (squaresInterval lo hi).2 linf) hl0'
    (lt_of_lt_of_le (mul_pos hpos hl') hle) (b1 l0 e2)
    (fun k => (b2 linf e3 (Or.inl hs) k).trans hle)
  simpa [varSquaresSens] using this

theorem kept_nil {B : Backend} {kept : List ((P × K) × List V)} (h : KeptFrom ([] : List (P × K × V)) kept) :
    kept = [] := by
  cases kept with
  | nil => rfl
  | cons e l =>
    have h1 := h.fromInput e (by simp)
    exact absurd (List.subperm_nil.mp h1) (h.nonempty e (by simp))

/-- One user with as many equal rows in one partition as allowed: all rows are kept. -/
theorem single_cell (B : Backend) (hB : B.Lawful) (p : Params) (l0 linf : ℕ) (h0 : 1 ≤ l0) (hl : 1 ≤ linf)
    (e1 : p.maxContributions = none) (e2 : p.maxPartitions = some l0) (e3 : p.maxPerPartition = some linf)
    (he : p.boundsEnforced = false) (create : List V → A) (v : V) :
    ∃ vs : List V, vs.Perm (List.replicate linf v) ∧
      accumulators B p true create none (List.replicate linf ((0 : ℕ), (0 : ℕ), v)) = .ok [(0, create vs)] ∧
      accumulators B p true create none ([] : List (ℕ × ℕ × V)) = .ok [] := by
  let col : List (ℕ × ℕ × V) := List.replicate linf (0, 0, v)
  have hcell : cell 0 0 col = List.replicate linf v := by
    unfold cell
    rw [List.filter_eq_self.mpr (by intro r hr; rw [List.eq_of_mem_replicate hr]; rfl), List.map_replicate]
  have hpart : partitionsOf 0 col = [0] := by
    have h1 : ∀ k, k ∈ partitionsOf 0 col ↔ k = 0 := by
      intro k
      unfold partitionsOf
      rw [List.mem_dedup]
      constructor
      · intro h
        obtain ⟨r, hr, rfl⟩ := List.mem_map.mp h
        rw [List.eq_of_mem_replicate (List.mem_filter.mp hr).1]
      · rintro rfl
        refine List.mem_map.mpr ⟨(0, 0, v), List.mem_filter.mpr ⟨?_, rfl⟩, rfl⟩
        exact List.mem_replicate.mpr ⟨by omega, rfl⟩
    have h2 := partitionsOf_nodup 0 col
    have h3 : (partitionsOf 0 col).Perm [0] :=
      (List.perm_ext_iff_of_nodup h2 (by simp)).mpr (fun k => by rw [h1]; simp)
    exact List.perm_singleton.mp h3
  have key : ∀ kept : List ((ℕ × ℕ) × List V), KeptFrom col kept →
      (∀ e ∈ kept, e.2.length = min linf (cell e.1.1 e.1.2 col).length) →
      (kept.filter fun e => e.1.1 = 0).length = 1 →
      ∃ vs : List V, vs.Perm (List.replicate linf v) ∧ kept = [((0, 0), vs)] := by
    intro kept k2 k3 k4
    have hall : ∀ e ∈ kept, e.1 = (0, 0) := by
      intro e hee
      have h1 := k2.fromInput e hee
      have h2 : cell e.1.1 e.1.2 col ≠ [] := by
        intro h; rw [h] at h1; exact k2.nonempty e hee (List.subperm_nil.mp h1)
      unfold cell at h2
      obtain ⟨x, hx⟩ := List.exists_mem_of_ne_nil _ h2
      obtain ⟨r, hr, -⟩ := List.mem_map.mp hx
      have hr2 := List.mem_filter.mp hr
      have := List.eq_of_mem_replicate hr2.1
      have h3 := hr2.2
      simp only [decide_eq_true_eq] at h3
      rw [this] at h3
      exact Prod.ext h3.1.symm h3.2.symm
    have hfull : (kept.filter fun e => e.1.1 = 0) = kept :=
      List.filter_eq_self.mpr (fun e hee => by simp [hall e hee])
    rw [hfull] at k4
    obtain ⟨e, rfl⟩ := List.length_eq_one_iff.mp k4
    have h1 := hall e (by simp)
    have h2 := k2.fromInput e (by simp)
    have h3 := k3 e (by simp)
    rw [h1, hcell] at h2 h3
    refine ⟨e.2, h2.perm_of_length_le (by simp [h3]), ?_⟩
    rw [← h1]
  cases hc : p.performCross with
  | true =>
    have hsel : selectBounder p true = .ok (.crossAndPer l0 linf) := by
      simp [selectBounder, e1, e2, e3, hc, natArg, bind, Except.bind, pure, Except.pure]
    obtain ⟨kept, k1, k2, k3, k4⟩ := crossAndPer_kept B hB l0 linf h0 hl create col
    obtain ⟨vs, hv1, rfl⟩ := key kept k2 k3 (by rw [k4, hpart]; simp; omega)
    obtain ⟨kept', k1', k2', -⟩ := crossAndPer_kept B hB l0 linf h0 hl create ([] : List (ℕ × ℕ × V))
    have := kept_nil (B := B) k2'
    subst this
    refine ⟨vs, hv1, ?_, ?_⟩
    · simp only [accumulators, dataAccumulators, he, hsel, dropPartitions, Bounder.run, addEmptyPublic, bind,
        Except.bind, pure, Except.pure, Bool.false_eq_true, if_false]
      rw [k1]; rfl
    · simp only [accumulators, dataAccumulators, he, hsel, dropPartitions, Bounder.run, addEmptyPublic, bind,
        Except.bind, pure, Except.pure, Bool.false_eq_true, if_false]
      rw [k1']; rfl
  | false =>
    have hsel : selectBounder p true = .ok (.linf linf) := by
      simp [selectBounder, e1, e3, hc, natArg, bind, Except.bind, pure, Except.pure]
    obtain ⟨kept, k1, k2, k3, k4⟩ := linf_kept B hB linf hl create col
    obtain ⟨vs, hv1, rfl⟩ := key kept k2 k3 (by rw [k4, hpart]; simp)
    obtain ⟨kept', k1', k2', -⟩ := linf_kept B hB linf hl create ([] : List (ℕ × ℕ × V))
    have := kept_nil (B := B) k2'
    subst this
    refine ⟨vs, hv1, ?_, ?_⟩
    · simp only [accumulators, dataAccumulators, he, hsel, dropPartitions, Bounder.run, addEmptyPublic, bind,
        Except.bind, pure, Except.pure, Bool.false_eq_true, if_false]
      rw [k1]; rfl
    · simp only [accumulators, dataAccumulators, he, hsel, dropPartitions, Bounder.run, addEmptyPublic, bind,
        Except.bind, pure, Except.pure, Bool.false_eq_true, if_false]
      rw [k1']; rfl

theorem sum_map_perm_replicate (f : V → ℚ) {vs : List V} {n : ℕ} {v : V} (h : vs.Perm (List.replicate n v)) :
    (vs.map f).sum = n * f v := by
  rw [(h.map f).sum_eq, List.map_replicate, List.sum_replicate, nsmul_eq_mul]

/-- **C17, defect.** For every other range, every backend and all bounds, there is a dataset and a user
within the bounds whose removal changes the normalised sum of squares by more than the sensitivity used
for its noise. -/
theorem C17_variance_squares_not_covered (B : Backend) (hB : B.Lawful) (lo hi : ℚ) (hlt : lo < hi)
    (hcov : ¬ SquaresCovered lo hi) (p : Params) (l0 linf : ℕ) (h0 : 1 ≤ l0) (hl : 1 ≤ linf)
    (e1 : p.maxContributions = none) (e2 : p.maxPartitions = some l0) (e3 : p.maxPerPartition = some linf)
    (he : p.boundsEnforced = false) :
    ∃ (col : List (ℕ × ℕ × ℚ)) (u : ℕ) (a a' : List (ℕ × ℕ × ℚ × ℚ)),
      (partitionsOf u col).length ≤ l0 ∧ (∀ k, (cell u k col).length ≤ linf) ∧
      accumulators B p true (Combiner.variance lo hi).create none col = .ok a ∧
      accumulators B p true (Combiner.variance lo hi).create none (without u col) = .ok a' ∧
      ¬ (varSquaresSens lo hi l0 linf).Covers fun k =>
        partitionTotal (fun x => x.2.2) a k - partitionTotal (fun x => x.2.2) a' k := by
  obtain ⟨vs, hv, h1, h2⟩ := single_cell B hB p l0 linf h0 hl e1 e2 e3 he (Combiner.variance lo hi).create hi
  have hw : without 0 (List.replicate linf ((0 : ℕ), (0 : ℕ), hi)) = [] := by
    unfold without
    rw [List.filter_eq_nil_iff]
    intro r hr
    rw [List.eq_of_mem_replicate hr]; simp
  refine ⟨List.replicate linf (0, 0, hi), 0, _, _, ?_, ?_, h1, by rw [hw]; exact h2, ?_⟩
  · refine le_trans ?_ h0
    refine (List.subperm_of_subset (partitionsOf_nodup _ _) (l₂ := [0]) ?_).length_le
    intro k hk
    unfold partitionsOf at hk
    rw [List.mem_dedup] at hk
    obtain ⟨r, hr, rfl⟩ := List.mem_map.mp hk
    rw [List.eq_of_mem_replicate (List.mem_filter.mp hr).1]; simp
  · intro k
    unfold cell
    rw [List.length_map]
    exact List.length_filter_le _ _ |>.trans (by simp)
  · intro hcv
    have h3 := hcv.linf _ rfl 0
    have hclip : clip lo hi hi = hi := by
      unfold clip; rw [max_eq_left hlt.le, min_self]
    have h4 : partitionTotal (fun x : ℕ × ℚ × ℚ => x.2.2) [((0 : ℕ), (Combiner.variance lo hi).create vs)] 0
        - partitionTotal (fun x : ℕ × ℚ × ℚ => x.2.2) ([] : List (ℕ × ℕ × ℚ × ℚ)) 0
        = linf * ((hi - lo) / 2) ^ 2 := by
      have : partitionTotal (fun x : ℕ × ℚ × ℚ => x.2.2) [((0 : ℕ), (Combiner.variance lo hi).create vs)] 0
          = (vs.map fun v => (clip lo hi v - middle lo hi) ^ 2).sum + 0 := rfl
      rw [this, sum_map_perm_replicate _ hv, hclip]
      simp only [partitionTotal, valuesOf_nil, List.map_nil, List.sum_nil, middle]
      ring
    have h5 : |(linf : ℚ) * ((hi - lo) / 2) ^ 2|
        ≤ meanLinf (squaresInterval lo hi).1 (squaresInterval lo hi).2 linf := by
      rw [← h4]
      exact_mod_cast h3
    have hl' : (0 : ℚ) < linf := by exact_mod_cast hl
    unfold SquaresCovered at hcov
    push Not at hcov
    obtain ⟨hz, hlarge⟩ := hcov
    rw [abs_of_nonneg (by positivity)] at h5
    unfold squaresInterval at h5
    rw [if_pos hz] at h5
    simp only at h5
    rw [meanLinf_eq (by have := le_max_left (lo ^ 2) (hi ^ 2); nlinarith [sq_nonneg lo])] at h5
    have h6 : ((hi - lo) / 2) ^ 2 ≤ (max (lo ^ 2) (hi ^ 2) - 0) / 2 := by
      rw [mul_comm] at h5
      exact le_of_mul_le_mul_right h5 hl'
    nlinarith

/-- A symmetric range is not covered, `[-1, 10]` and `[0, 5]` are. -/
example : ¬ SquaresCovered (-1) 1 ∧ SquaresCovered (-1) 10 ∧ SquaresCovered 0 5 := by
  unfold SquaresCovered
  refine ⟨?_, ?_, ?_⟩ <;> norm_num

example := C17_mean_normalized_sum_sensitivity (localBackend lastRng) (C39_local_backend_lawful _)
  (localBackend_keyLocal _) demoParams demoParams_valid (-1) 4 rfl rfl (by norm_num)
  [Combiner.mean (-1) 4] ⟨0, by decide⟩ rfl (some [1, 3]) demoRows 1 (demo_keeps 1)

end PDP.Engine
