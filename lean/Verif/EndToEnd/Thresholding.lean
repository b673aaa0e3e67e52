import Verif.EndToEnd.CallsSpec
import Mathlib.MeasureTheory.Integral.IntegralEqImproper
import Mathlib.Analysis.SpecialFunctions.ImproperIntegrals

/-!
# The contract of thresholded counts can be met: Laplace thresholding (for C62)
-/

set_option linter.unusedSectionVars false

namespace PDP.EndToEnd

open PDP PDP.Engine PDP.Approx MeasureTheory
open PDP.Engine.Mechanism (Additive laplaceDensity)

/-- From conditions on a single partition to all partitions: one privacy id more or less in at most `l0` of them. -/
theorem pi_partitionwise {X : Type} [MeasurableSpace X] {e d l0 : ℝ} (he : 0 ≤ e) (hd : 0 ≤ d) (hl : 1 ≤ l0)
    (F : ℕ → Measure X) (hF : ∀ n, IsProbabilityMeasure (F n))
    (h : ∀ m n, (m = n + 1 ∨ n = m + 1) → Indist (e / l0) (d / l0) (F m) (F n)) {ι : Type} [Fintype ι] (a b : ι → ℕ)
    (hab : ∀ i, a i = b i ∨ a i = b i + 1 ∨ b i = a i + 1) (hcard : (Fintype.card {i // a i ≠ b i} : ℝ) ≤ l0) :
    Indist e d (Measure.pi fun i => F (a i)) (Measure.pi fun i => F (b i)) := by
  classical
  have hl' : (0 : ℝ) < l0 := by linarith
  set gs : List ι := (Finset.univ.filter fun i => a i ≠ b i).toList with hgs
  have hlen : (gs.length : ℝ) ≤ l0 := by
    rw [hgs, Finset.length_toList, ← Fintype.card_subtype]
    exact hcard
  have key := Indist.groups gs (Finset.nodup_toList _) (fun _ => e / l0) (fun _ => d / l0)
    (fun _ _ => by positivity) (fun i : ι => i) (fun i => F (a i)) (fun i => F (b i)) ?_ ?_
  · refine key.mono ?_ ?_
    · rw [List.map_const', List.sum_replicate, nsmul_eq_mul, mul_div_assoc', div_le_iff₀ hl', mul_comm]
      exact mul_le_mul_of_nonneg_left hlen he
    · rw [List.map_const', List.sum_replicate, nsmul_eq_mul, mul_div_assoc', div_le_iff₀ hl', mul_comm]
      exact mul_le_mul_of_nonneg_left hlen hd
  · intro i hi
    rw [hgs, Finset.mem_toList, Finset.mem_filter] at hi
    have : a i = b i := by
      by_contra hne
      exact hi ⟨Finset.mem_univ _, hne⟩
    rw [this]
  · intro i hi
    rw [hgs, Finset.mem_toList, Finset.mem_filter] at hi
    have hc : Indist (e / l0) (d / l0) (F (a i)) (F (b i)) := h _ _ ((hab i).resolve_left hi.2)
    let f : Unit ≃ {j : ι // j = i} := ⟨fun _ => ⟨i, rfl⟩, fun _ => (), fun _ => rfl, fun j => Subtype.ext j.2.symm⟩
    convert Indist.reindex f (μ := fun j : {j : ι // j = i} => F (a j)) (ν := fun j : {j : ι // j = i} => F (b j)) ?_ using 2
    have e1 : ∀ q : Measure X, IsProbabilityMeasure q → (Measure.pi fun _ : Unit => q)
        = q.map (MeasurableEquiv.funUnique Unit X).symm := by
      intro q hq
      exact ((measurePreserving_funUnique q Unit).symm _).map_eq.symm
    show Indist _ _ (Measure.pi fun _ : Unit => F (a i)) (Measure.pi fun _ : Unit => F (b i))
    rw [e1 _ (hF _), e1 _ (hF _)]
    exact hc.map (MeasurableEquiv.funUnique Unit X).symm.measurable

/-- What is seen of a noisy count `v`: whether it reaches the threshold `t`, and then its value. -/
noncomputable def thresholded (t v : ℝ) : Bool × ℝ := (decide (t ≤ v), if t ≤ v then v else 0)

theorem measurable_thresholded (t : ℝ) : Measurable (thresholded t) := by
  have h : MeasurableSet {v : ℝ | t ≤ v} := measurableSet_Ici
  refine Measurable.prodMk ?_ (Measurable.ite h measurable_id measurable_const)
  have : (fun v : ℝ => decide (t ≤ v)) = fun v => if t ≤ v then true else false := by
    funext v; by_cases h : t ≤ v <;> simp [h]
  rw [this]
  exact Measurable.ite h measurable_const measurable_const

/-- Laplace thresholding: the count gets Laplace noise of scale `l0 / e` and is released if it reaches
`1 + l0 / e * log (l0 / (2 d))` (at least 1). -/
noncomputable def laplaceThresholding (e d l0 : ℝ) (n : ℕ) : Measure (Bool × ℝ) :=
  (noisy (.laplace (if 0 < l0 / e then l0 / e else 1) 1) n).map
    (thresholded (1 + l0 / e * max 0 (Real.log (l0 / (2 * d)))))

/-- Upper tail of Laplace noise. -/
theorem laplace_tail {b t : ℝ} (hb : 0 < b) (ht : 0 ≤ t) (c : ℝ) (x : ℝ) :
    noisy (.laplace b x) c {v | c + t ≤ v} = ENNReal.ofReal (Real.exp (-t / b) / 2) := by
  have hset : {v : ℝ | c + t ≤ v} = Set.Ici (c + t) := rfl
  rw [noisy_laplace, hset, withDensity_apply _ measurableSet_Ici, ← ofReal_integral_eq_lintegral_ofReal
    ((laplace_integrable hb).comp_sub_right _).integrableOn
    (Filter.Eventually.of_forall fun t => laplaceDensity_nonneg hb.le _)]
  congr 1
  rw [integral_Ici_eq_integral_Ioi]
  have h1 : ∫ y in Set.Ioi (c + t), laplaceDensity b (y - c)
      = ∫ y in Set.Ioi (c + t), (Real.exp (c / b) / (2 * b)) * Real.exp ((-1 / b) * y) := by
    apply setIntegral_congr_fun measurableSet_Ioi
    intro y hy
    have hy' : 0 ≤ y - c := by
      have : c + t < y := hy
      linarith
    show laplaceDensity b (y - c) = (Real.exp (c / b) / (2 * b)) * Real.exp ((-1 / b) * y)
    unfold laplaceDensity
    rw [abs_of_nonneg hy', div_mul_eq_mul_div, ← Real.exp_add]
    congr 2
    field_simp
    ring
  have hneg : -1 / b < 0 := by
    rw [div_neg_iff]; right; exact ⟨by norm_num, hb⟩
  rw [h1, integral_const_mul, integral_exp_mul_Ioi hneg]
  have : Real.exp (-t / b) = Real.exp (c / b) * Real.exp (-1 / b * (c + t)) := by
    rw [← Real.exp_add]; congr 1; field_simp; ring
  rw [this]
  field_simp

theorem laplaceThresholding_prob (e d l0 : ℝ) (n : ℕ) : IsProbabilityMeasure (laplaceThresholding e d l0 n) := by
  have hb : 0 < (if 0 < l0 / e then l0 / e else 1) := by split <;> [assumption; norm_num]
  have := noisy_laplace_prob hb 1 n
  exact Measure.isProbabilityMeasure_map (measurable_thresholded _).aemeasurable

/-- Counts that differ by one. -/
theorem laplaceThresholding_near {e d l0 : ℝ} (he : 0 < e) (hl' : 0 < l0) (m n : ℕ) (hmn : m = n + 1 ∨ n = m + 1) :
    Indist (e / l0) 0 (laplaceThresholding e d l0 m) (laplaceThresholding e d l0 n) := by
  have hbp : 0 < l0 / e := div_pos hl' he
  unfold laplaceThresholding
  rw [if_pos hbp]
  apply Indist.map _ (measurable_thresholded _)
  have hel : 0 < e / l0 := div_pos he hl'
  have h1 : |(m : ℝ) - n| ≤ 1 := by
    rcases hmn with rfl | rfl
    · push_cast; rw [add_sub_cancel_left]; simp
    · push_cast; rw [sub_add_cancel_left]; simp
  have hg := laplace_group (ι := Unit) hel one_pos (fun _ => (m : ℝ)) (fun _ => (n : ℝ)) (by simpa using h1) 1
  have hsc : (1 : ℝ) / (e / l0) = l0 / e := one_div_div _ _
  rw [hsc] at hg
  have e1 : ∀ z : ℝ, (Measure.pi fun _ : Unit => noisy (.laplace (l0 / e) 1) z).map
      (MeasurableEquiv.funUnique Unit ℝ) = noisy (.laplace (l0 / e) 1) z := by
    intro z
    have := noisy_laplace_prob hbp 1 z
    exact (measurePreserving_funUnique (noisy (.laplace (l0 / e) 1) z) Unit).map_eq
  have := hg.map (MeasurableEquiv.funUnique Unit ℝ).measurable
  rw [e1, e1] at this
  exact this

/-- **The contract of thresholded counts can be met**: by Laplace thresholding. -/
theorem thresholdingContract_laplace : ThresholdingContract fun _ e d l0 _ n => laplaceThresholding e d l0 n := by
  have hprob := laplaceThresholding_prob
  refine ⟨fun st e d l0 pre n => hprob e d l0 n, ?_⟩
  intro st e d l0 pre he hd hl ι _ a b hab hcard
  have hl' : (0 : ℝ) < l0 := by linarith
  have hbp : 0 < l0 / e := div_pos hl' he
  set F : ℕ → Measure (Bool × ℝ) := orAbsentLaw (laplaceThresholding e d l0) with hFdef
  have hF : ∀ n, IsProbabilityMeasure (F n) := by
    intro n
    rw [hFdef]
    unfold orAbsentLaw
    split
    · infer_instance
    · exact hprob e d l0 n
  set t : ℝ := 1 + l0 / e * max 0 (Real.log (l0 / (2 * d))) with htdef
  have hlaw : ∀ n, laplaceThresholding e d l0 n = (noisy (.laplace (l0 / e) 1) n).map (thresholded t) := by
    intro n
    unfold laplaceThresholding
    rw [if_pos hbp]
  -- both counts positive
  have hpos : ∀ m n : ℕ, (m = n + 1 ∨ n = m + 1) →
      Indist (e / l0) 0 (laplaceThresholding e d l0 m) (laplaceThresholding e d l0 n) := laplaceThresholding_near he hl'
  -- one privacy id: the partition is hardly ever released
  have hone : laplaceThresholding e d l0 1 {x | x ≠ (false, 0)} ≤ ENNReal.ofReal (d / l0) := by
    have hm : MeasurableSet {x : Bool × ℝ | x ≠ (false, 0)} := (MeasurableSet.singleton (false, (0 : ℝ))).compl
    rw [hlaw, Measure.map_apply (measurable_thresholded t) hm]
    have hset : thresholded t ⁻¹' {x | x ≠ (false, 0)} ⊆ {v | ((1 : ℕ) : ℝ) + l0 / e * max 0 (Real.log (l0 / (2 * d))) ≤ v} := by
      intro v hv
      by_contra hlt
      apply hv
      have : ¬ t ≤ v := by
        rw [htdef]
        simpa using hlt
      simp [thresholded, this]
    refine (measure_mono hset).trans ?_
    rw [laplace_tail hbp (mul_nonneg hbp.le (le_max_left _ _))]
    apply ENNReal.ofReal_le_ofReal
    have e1 : -(l0 / e * max 0 (Real.log (l0 / (2 * d)))) / (l0 / e) = -max 0 (Real.log (l0 / (2 * d))) := by
      field_simp
    rw [e1]
    have h2 : Real.exp (-max 0 (Real.log (l0 / (2 * d)))) ≤ Real.exp (-Real.log (l0 / (2 * d))) :=
      Real.exp_le_exp.mpr (neg_le_neg (le_max_right _ _))
    rw [Real.exp_neg (Real.log _), Real.exp_log (by positivity)] at h2
    calc _ ≤ (l0 / (2 * d))⁻¹ / 2 := by linarith
      _ = d / l0 := by field_simp
  have hnear : ∀ m n, (m = n + 1 ∨ n = m + 1) → Indist (e / l0) (d / l0) (F m) (F n) := by
    have hel : 0 ≤ e / l0 := by positivity
    have hdl : 0 ≤ d / l0 := by positivity
    intro m n hmn
    by_cases hm : m = 0
    · -- absent against one id
      have hn : n = 1 := by omega
      subst hm hn
      rw [hFdef]
      simp only [orAbsentLaw, if_true, one_ne_zero, if_false]
      have := hprob e d l0 1
      intro A hA
      rw [Measure.dirac_apply' _ hA]
      by_cases h : (false, (0 : ℝ)) ∈ A
      · rw [Set.indicator_of_mem h]
        have h1 : (1 : ENNReal) ≤ laplaceThresholding e d l0 1 A + laplaceThresholding e d l0 1 {x | x ≠ (false, 0)} := by
          rw [← measure_univ (μ := laplaceThresholding e d l0 1)]
          refine (measure_mono ?_).trans (measure_union_le _ _)
          intro x _
          by_cases hx : x = (false, 0)
          · left; rw [hx]; exact h
          · right; exact hx
        have h2 : laplaceThresholding e d l0 1 A ≤ ENNReal.ofReal (Real.exp (e / l0)) * laplaceThresholding e d l0 1 A := by
          have : (1 : ENNReal) ≤ ENNReal.ofReal (Real.exp (e / l0)) := by
            rw [← ENNReal.ofReal_one]; exact ENNReal.ofReal_le_ofReal (Real.one_le_exp hel)
          calc _ = 1 * laplaceThresholding e d l0 1 A := (one_mul _).symm
            _ ≤ _ := mul_le_mul_left this _
        exact h1.trans (add_le_add h2 hone)
      · rw [Set.indicator_of_notMem h]; exact zero_le
    · by_cases hn : n = 0
      · have hm1 : m = 1 := by omega
        subst hn hm1
        rw [hFdef]
        simp only [orAbsentLaw, if_true, one_ne_zero, if_false]
        intro A hA
        rw [Measure.dirac_apply' _ hA]
        have := hprob e d l0 1
        by_cases h : (false, (0 : ℝ)) ∈ A
        · rw [Set.indicator_of_mem h]
          have h1 : laplaceThresholding e d l0 1 A ≤ 1 := prob_le_one
          have h2 : (1 : ENNReal) ≤ ENNReal.ofReal (Real.exp (e / l0)) := by
            rw [← ENNReal.ofReal_one]; exact ENNReal.ofReal_le_ofReal (Real.one_le_exp hel)
          simp only [Pi.one_apply, mul_one]
          exact (h1.trans h2).trans le_self_add
        · rw [Set.indicator_of_notMem h, mul_zero, zero_add]
          refine (measure_mono ?_).trans hone
          intro x hx hx'
          exact h (by rw [← hx']; exact hx)
      · rw [hFdef]
        simp only [orAbsentLaw, hm, hn, if_false]
        exact (hpos m n hmn).mono le_rfl hdl
  refine ⟨pi_partitionwise he.le hd.le hl F hF hnear a b (fun i => ?_) hcard,
    pi_partitionwise he.le hd.le hl F hF hnear b a (fun i => ?_) ?_⟩
  · have := hab i; omega
  · have := hab i; omega
  · simpa [ne_comm] using hcard

end PDP.EndToEnd
