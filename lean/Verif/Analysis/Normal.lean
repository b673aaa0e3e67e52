import Mathlib.Probability.Distributions.Gaussian.Real
import Mathlib.Probability.CDF
import Mathlib.MeasureTheory.Integral.IntervalIntegral.FundThmCalculus
import Mathlib.Analysis.Calculus.Deriv.MeanValue
import Mathlib.Analysis.Complex.ExponentialBounds
import Verif.Analysis.Compound

/-!
# The refined normal approximation of the number of users in a partition (C69)

`analysis/poisson_binomial.py`, `compute_pmf_approximation`.  Floating point numbers are real numbers here.
-/

namespace PDP.Analysis.Normal

open MeasureTheory ProbabilityTheory Filter Topology
open PDP.Analysis (Moments)

/-- `scipy.stats.norm.pdf`. -/
noncomputable def pdf (x : ℝ) : ℝ := gaussianPDFReal 0 1 x

/-- `scipy.stats.norm.cdf`. -/
noncomputable def cdf (x : ℝ) : ℝ := ProbabilityTheory.cdf (gaussianReal 0 1) x

/-- `G` in `poisson_binomial.py:73`. -/
noncomputable def refined (skewness x : ℝ) : ℝ := cdf x + skewness * (1 - x * x) * pdf x / 6

/-- `np.clip(v, 0, 1)`. -/
noncomputable def clip01 (v : ℝ) : ℝ := min (max v 0) 1

/-- `round` of Python and `np.round`: the nearest integer, halves to the even one. -/
noncomputable def roundEven (x : ℝ) : ℤ :=
  if Int.fract x < 1 / 2 then ⌊x⌋
  else if 1 / 2 < Int.fract x then ⌊x⌋ + 1
  else if Even ⌊x⌋ then ⌊x⌋ else ⌊x⌋ + 1

/-- Neighbouring differences, `np.diff`. -/
def diffs : List ℝ → List ℝ
  | a :: b :: l => (b - a) :: diffs (b :: l)
  | _ => []

/-- `poisson_binomial.py:62-83` `compute_pmf_approximation`: the first count and the probabilities. -/
noncomputable def pmfApproximation (mean sigma skewness : ℝ) (n : ℕ) : ℤ × List ℝ :=
  if sigma = 0 then (roundEven mean, [1])
  else
    let start := max 0 ⌊mean - 8 * sigma⌋
    let stop := min (n : ℤ) (roundEven (mean + 8 * sigma))
    -- np.arange(start - 1, stop + 1)
    let xs := (List.range (stop + 1 - (start - 1)).toNat).map fun i : ℕ => start - 1 + (i : ℤ)
    let values := xs.map fun x : ℤ => clip01 (refined skewness (((x : ℝ) + 0.5 - mean) / sigma))
    (start, diffs values)

/-- `per_partition_combiners.py:147-151`: the approximation for the moments of the number of users. -/
noncomputable def fromMoments (m : Moments) : ℤ × List ℝ :=
  let std := Real.sqrt (m.var : ℝ)
  let skewness := if std = 0 then 0 else (m.third : ℝ) / std ^ 3
  pmfApproximation m.exp std skewness m.count

/-! ### The normal distribution -/

theorem pdf_eq (x : ℝ) : pdf x = (Real.sqrt (2 * Real.pi))⁻¹ * Real.exp (-(x ^ 2) / 2) := by
  simp [pdf, gaussianPDFReal]

theorem pdf_pos (x : ℝ) : 0 < pdf x := gaussianPDFReal_pos 0 1 x one_ne_zero

theorem pdf_neg (x : ℝ) : pdf (-x) = pdf x := by
  rw [pdf_eq, pdf_eq, neg_sq]

theorem continuous_pdf : Continuous pdf := by
  have : pdf = fun x => (Real.sqrt (2 * Real.pi))⁻¹ * Real.exp (-(x ^ 2) / 2) := funext pdf_eq
  rw [this]
  fun_prop

theorem hasDerivAt_pdf (x : ℝ) : HasDerivAt pdf (-x * pdf x) x := by
  have : pdf = fun x => (Real.sqrt (2 * Real.pi))⁻¹ * Real.exp (-(x ^ 2) / 2) := funext pdf_eq
  rw [this]
  have h1 : HasDerivAt (fun x : ℝ => -(x ^ 2) / 2) (-x) x := by
    have := ((hasDerivAt_pow 2 x).neg).div_const 2
    refine this.congr_deriv ?_
    norm_num
    ring
  refine (h1.exp.const_mul _).congr_deriv ?_
  ring

theorem cdf_sub {x y : ℝ} (h : x ≤ y) : cdf y - cdf x = ∫ t in x..y, pdf t := by
  unfold cdf
  rw [cdf_eq_real, cdf_eq_real, intervalIntegral.integral_of_le h]
  have h1 : (gaussianReal 0 1).real (Set.Iic y) = (gaussianReal 0 1).real (Set.Iic x) + (gaussianReal 0 1).real (Set.Ioc x y) := by
    rw [← measureReal_union (by
      rw [Set.disjoint_left]; intro t h1 h2; exact absurd h1 (not_le.mpr h2.1)) measurableSet_Ioc, Set.Iic_union_Ioc_eq_Iic h]
  rw [h1, add_sub_cancel_left, measureReal_def, gaussianReal_apply_eq_integral 0 one_ne_zero, ENNReal.toReal_ofReal]
  · rfl
  · exact setIntegral_nonneg measurableSet_Ioc fun t _ => gaussianPDFReal_nonneg 0 1 t

theorem hasDerivAt_cdf (x : ℝ) : HasDerivAt cdf (pdf x) x := by
  have h1 : ∀ y, cdf y = cdf (x - 1) + ∫ t in (x - 1)..y, pdf t := by
    intro y
    rcases le_total (x - 1) y with h | h
    · rw [← cdf_sub h]; ring
    · rw [intervalIntegral.integral_symm, ← cdf_sub h]; ring
  have h2 : HasDerivAt (fun y => ∫ t in (x - 1)..y, pdf t) (pdf x) x :=
    intervalIntegral.integral_hasDerivAt_right (continuous_pdf.intervalIntegrable _ _)
      (continuous_pdf.stronglyMeasurableAtFilter _ _) continuous_pdf.continuousAt
  have : cdf = fun y => cdf (x - 1) + ∫ t in (x - 1)..y, pdf t := funext h1
  rw [this]
  exact h2.const_add _

theorem cdf_neg (x : ℝ) : cdf (-x) = 1 - cdf x := by
  have : NullSingletonClass (gaussianReal 0 1) := nullSingletonClass_gaussianReal one_ne_zero
  unfold cdf
  rw [cdf_eq_real, cdf_eq_real]
  have h1 : gaussianReal 0 1 = (gaussianReal 0 1).map fun t => -t := by
    rw [gaussianReal_map_neg, neg_zero]
  have h2 : (gaussianReal 0 1).real (Set.Iic (-x)) = (gaussianReal 0 1).real (Set.Ici x) := by
    conv_lhs => rw [h1]
    rw [map_measureReal_apply measurable_neg measurableSet_Iic]
    congr 1
    ext t
    simp
  have h3 : (gaussianReal 0 1).real (Set.Iic x) = (gaussianReal 0 1).real (Set.Iio x) := by
    exact measureReal_congr Iio_ae_eq_Iic.symm
  have h4 : (Set.Ici x) = (Set.Iio x)ᶜ := by ext t; simp
  rw [h2, h3, h4, probReal_compl_eq_one_sub measurableSet_Iio]

theorem cdf_zero : cdf 0 = 1 / 2 := by
  have := cdf_neg 0
  rw [neg_zero] at this
  linarith

theorem cdf_mono {x y : ℝ} (h : x ≤ y) : cdf x ≤ cdf y := monotone_cdf _ h

theorem refined_neg (γ x : ℝ) : refined γ (-x) = 1 - refined (-γ) x := by
  unfold refined
  rw [cdf_neg, pdf_neg]
  ring

theorem hasDerivAt_refined (γ x : ℝ) : HasDerivAt (refined γ) (pdf x * (1 + γ * (x ^ 3 - 3 * x) / 6)) x := by
  have h1 : HasDerivAt (fun x : ℝ => γ * (1 - x * x)) (γ * (-(2 * x))) x := by
    have := (((hasDerivAt_id x).mul (hasDerivAt_id x)).const_sub 1).const_mul γ
    refine this.congr_deriv ?_
    simp
    ring
  have h2 := (hasDerivAt_cdf x).add ((h1.mul (hasDerivAt_pdf x)).div_const 6)
  refine h2.congr_deriv ?_
  ring

/-- Where `refined` has nonnegative derivative it increases. -/
theorem refined_le {γ x y : ℝ} (h : x ≤ y) (hd : ∀ z, x ≤ z → z ≤ y → 0 ≤ 1 + γ * (z ^ 3 - 3 * z) / 6) :
    refined γ x ≤ refined γ y := by
  have hm : MonotoneOn (refined γ) (Set.Icc x y) := by
    apply monotoneOn_of_deriv_nonneg (convex_Icc x y)
    · exact fun z _ => (hasDerivAt_refined γ z).continuousAt.continuousWithinAt
    · exact fun z _ => (hasDerivAt_refined γ z).differentiableAt.differentiableWithinAt
    · intro z hz
      rw [interior_Icc] at hz
      rw [(hasDerivAt_refined γ z).deriv]
      exact mul_nonneg (pdf_pos z).le (hd z hz.1.le hz.2.le)
  exact hm (Set.left_mem_Icc.mpr h) (Set.right_mem_Icc.mpr h) h

/-- Where `refined` has nonpositive derivative it decreases. -/
theorem refined_ge {γ x y : ℝ} (h : x ≤ y) (hd : ∀ z, x ≤ z → z ≤ y → 1 + γ * (z ^ 3 - 3 * z) / 6 ≤ 0) :
    refined γ y ≤ refined γ x := by
  have hm : AntitoneOn (refined γ) (Set.Icc x y) := by
    apply antitoneOn_of_deriv_nonpos (convex_Icc x y)
    · exact fun z _ => (hasDerivAt_refined γ z).continuousAt.continuousWithinAt
    · exact fun z _ => (hasDerivAt_refined γ z).differentiableAt.differentiableWithinAt
    · intro z hz
      rw [interior_Icc] at hz
      rw [(hasDerivAt_refined γ z).deriv]
      exact mul_nonpos_of_nonneg_of_nonpos (pdf_pos z).le (hd z hz.1.le hz.2.le)
  exact hm (Set.left_mem_Icc.mpr h) (Set.right_mem_Icc.mpr h) h

theorem tendsto_half_sq : Tendsto (fun x : ℝ => x ^ 2 / 2) atBot atTop := by
  have h1 : Tendsto (fun x : ℝ => x * x) atBot atTop := tendsto_id.atBot_mul_atBot₀ tendsto_id
  refine (h1.atTop_div_const (by norm_num : (0 : ℝ) < 2)).congr fun x => ?_
  rw [pow_two]

theorem tendsto_pdf_atBot : Tendsto pdf atBot (𝓝 0) := by
  have h1 := (Real.tendsto_exp_neg_atTop_nhds_zero.comp tendsto_half_sq).const_mul (Real.sqrt (2 * Real.pi))⁻¹
  rw [mul_zero] at h1
  refine h1.congr fun x => ?_
  rw [pdf_eq, Function.comp, neg_div]

theorem tendsto_sq_pdf_atBot : Tendsto (fun x => x ^ 2 * pdf x) atBot (𝓝 0) := by
  have h1 := ((Real.tendsto_pow_mul_exp_neg_atTop_nhds_zero 1).comp tendsto_half_sq).const_mul (2 * (Real.sqrt (2 * Real.pi))⁻¹)
  rw [mul_zero] at h1
  refine h1.congr fun x => ?_
  simp only [pdf_eq, Function.comp, neg_div, pow_one]
  ring

theorem tendsto_refined_atBot (γ : ℝ) : Tendsto (refined γ) atBot (𝓝 0) := by
  have h1 : Tendsto cdf atBot (𝓝 0) := tendsto_cdf_atBot _
  have h2 := h1.add (((tendsto_pdf_atBot.sub tendsto_sq_pdf_atBot).const_mul γ).div_const 6)
  rw [sub_zero, mul_zero, zero_div, add_zero] at h2
  refine h2.congr fun x => ?_
  unfold refined
  ring

theorem cdf_le_pdf {x : ℝ} (h : x ≤ -1) : cdf x ≤ pdf x := by
  have hm : MonotoneOn (fun z => pdf z - cdf z) (Set.Iic (-1)) := by
    have hd : ∀ z, HasDerivAt (fun z => pdf z - cdf z) (-z * pdf z - pdf z) z := fun z =>
      (hasDerivAt_pdf z).sub (hasDerivAt_cdf z)
    apply monotoneOn_of_deriv_nonneg (convex_Iic _)
    · exact fun z _ => (hd z).continuousAt.continuousWithinAt
    · exact fun z _ => (hd z).differentiableAt.differentiableWithinAt
    · intro z hz
      rw [interior_Iic] at hz
      rw [(hd z).deriv]
      have := pdf_pos z
      have hz' : z < -1 := hz
      nlinarith
  have hl : Tendsto (fun z => pdf z - cdf z) atBot (𝓝 0) := by
    have h1 : Tendsto cdf atBot (𝓝 0) := tendsto_cdf_atBot _
    simpa using tendsto_pdf_atBot.sub h1
  have : 0 ≤ pdf x - cdf x := by
    refine le_of_tendsto hl ?_
    filter_upwards [eventually_le_atBot x] with z hz
    exact hm (Set.mem_Iic.mpr (hz.trans h)) (Set.mem_Iic.mpr h) hz
  linarith

/-! ### The clipped approximation increases -/

theorem clip01_mono {a b : ℝ} (h : a ≤ b) : clip01 a ≤ clip01 b := min_le_min_right _ (max_le_max_right _ h)

theorem clip01_nonneg (a : ℝ) : 0 ≤ clip01 a := le_min (le_max_right _ _) zero_le_one

theorem clip01_le (a : ℝ) : clip01 a ≤ 1 := min_le_right _ _

theorem clip01_of_nonpos {a : ℝ} (h : a ≤ 0) : clip01 a = 0 := by
  unfold clip01
  rw [max_eq_right h, min_eq_left zero_le_one]

theorem clip01_one_sub (a : ℝ) : clip01 (1 - a) = 1 - clip01 a := by
  unfold clip01
  rcases le_total a 0 with h | h
  · rw [max_eq_right h, min_eq_left zero_le_one, max_eq_left (by linarith), min_eq_right (by linarith)]; ring
  · rcases le_total a 1 with h1 | h1
    · rw [max_eq_left h, min_eq_left h1, max_eq_left (by linarith), min_eq_left (by linarith)]
    · rw [max_eq_left h, min_eq_right h1, max_eq_right (by linarith), min_eq_left zero_le_one]; ring

/-- The clipped value at a point. -/
noncomputable def clipped (γ x : ℝ) : ℝ := clip01 (refined γ x)

theorem clipped_neg (γ x : ℝ) : clipped γ (-x) = 1 - clipped (-γ) x := by
  unfold clipped
  rw [refined_neg, clip01_one_sub]

theorem clipped_le_left {γ x y : ℝ} (hγ : 0 ≤ γ) (h : x ≤ y) (hy : y ≤ 0) : clipped γ x ≤ clipped γ y := by
  by_cases hx : 0 ≤ 1 + γ * (x ^ 3 - 3 * x) / 6
  · refine clip01_mono (refined_le h fun z h1 h2 => ?_)
    by_cases hz : z ≤ -1
    · have : x ^ 3 - 3 * x ≤ z ^ 3 - 3 * z := by
        nlinarith [mul_nonneg (sub_nonneg.mpr h1) (by nlinarith : (0 : ℝ) ≤ z ^ 2 + z * x + x ^ 2 - 3)]
      have := mul_le_mul_of_nonneg_left this hγ
      linarith
    · push Not at hz
      have : 0 ≤ z ^ 3 - 3 * z := by nlinarith [mul_nonneg (by linarith : (0 : ℝ) ≤ -z) (by nlinarith : (0 : ℝ) ≤ 3 - z ^ 2)]
      have := mul_nonneg hγ this
      linarith
  · push Not at hx
    have hx1 : x < -1 := by
      by_contra hc
      push Not at hc
      have : 0 ≤ x ^ 3 - 3 * x := by
        nlinarith [mul_nonneg (by linarith : (0 : ℝ) ≤ -x) (by nlinarith : (0 : ℝ) ≤ 3 - x ^ 2)]
      have := mul_nonneg hγ this
      linarith
    have h0 : refined γ x ≤ 0 := by
      refine ge_of_tendsto (tendsto_refined_atBot γ) ?_
      filter_upwards [eventually_le_atBot x] with w hw
      refine refined_ge hw fun z h1 h2 => ?_
      have : z ^ 3 - 3 * z ≤ x ^ 3 - 3 * x := by
        nlinarith [mul_nonneg (sub_nonneg.mpr h2) (by nlinarith : (0 : ℝ) ≤ z ^ 2 + z * x + x ^ 2 - 3)]
      have := mul_le_mul_of_nonneg_left this hγ
      linarith
    unfold clipped
    rw [clip01_of_nonpos h0]
    exact clip01_nonneg _

theorem clipped_le_right {γ x y : ℝ} (hγ : 0 ≤ γ) (hγ3 : γ ≤ 3) (h : x ≤ y) (hx : 0 ≤ x) : clipped γ x ≤ clipped γ y := by
  refine clip01_mono (refined_le h fun z h1 h2 => ?_)
  have hz : -2 ≤ z ^ 3 - 3 * z := by nlinarith [mul_nonneg (sq_nonneg (z - 1)) (by linarith : (0 : ℝ) ≤ z + 2)]
  have := mul_le_mul_of_nonneg_left hz hγ
  linarith

/-- With a skewness between -3 and 3 the clipped function increases everywhere. -/
theorem clipped_mono {γ x y : ℝ} (hγ : |γ| ≤ 3) (h : x ≤ y) : clipped γ x ≤ clipped γ y := by
  have key : ∀ γ x y : ℝ, 0 ≤ γ → γ ≤ 3 → x ≤ y → clipped γ x ≤ clipped γ y := by
    intro γ x y h0 h3 h
    rcases le_total y 0 with hy | hy
    · exact clipped_le_left h0 h hy
    · rcases le_total 0 x with hx | hx
      · exact clipped_le_right h0 h3 h hx
      · exact (clipped_le_left h0 hx le_rfl).trans (clipped_le_right h0 h3 hy le_rfl)
  rw [abs_le] at hγ
  rcases le_total 0 γ with h0 | h0
  · exact key γ x y h0 hγ.2 h
  · have := key (-γ) (-y) (-x) (by linarith) (by linarith) (by linarith)
    rw [clipped_neg, clipped_neg, neg_neg] at this
    linarith

theorem cdf_sub_ge {x y : ℝ} (hx : 0 ≤ x) (h : x + 1 ≤ y) : pdf (x + 1) ≤ cdf y - cdf x := by
  have h1 : cdf (x + 1) ≤ cdf y := cdf_mono h
  have h2 : pdf (x + 1) ≤ cdf (x + 1) - cdf x := by
    obtain ⟨c, hc, he⟩ := exists_hasDerivAt_eq_slope cdf pdf (by linarith : x < x + 1)
      (fun z _ => (hasDerivAt_cdf z).continuousAt.continuousWithinAt) fun z _ => hasDerivAt_cdf z
    have h3 : pdf c = cdf (x + 1) - cdf x := by rw [he]; simp
    rw [← h3, pdf_eq, pdf_eq]
    refine mul_le_mul_of_nonneg_left ?_ (by positivity)
    rw [Real.exp_le_exp]
    nlinarith [hc.1, hc.2]
  linarith

theorem pdf_ratio (x y : ℝ) : pdf x = pdf y * Real.exp ((y ^ 2 - x ^ 2) / 2) := by
  rw [pdf_eq, pdf_eq, mul_assoc, ← Real.exp_add]
  congr 2
  ring

theorem cube_le_exp {y : ℝ} (h : 0 ≤ y) : y ^ 3 / 6 ≤ Real.exp y := by
  have := Real.pow_div_factorial_le_exp y h 3
  simpa [Nat.factorial] using this

/-- Neighbouring points of a distribution with small deviation: the approximation increases between them. -/
theorem clipped_step {γ x D : ℝ} (hγ : |γ| ≤ D) (hD : 3 ≤ D) (hx : 11 / 30 * D ≤ |x|) (hy : 11 / 30 * D ≤ |x + D|) :
    clipped γ x ≤ clipped γ (x + D) := by
  have key : ∀ γ x : ℝ, 0 ≤ γ → γ ≤ D → 11 / 30 * D ≤ |x| → 11 / 30 * D ≤ |x + D| → clipped γ x ≤ clipped γ (x + D) := by
    intro γ x h0 hγ hx hy
    rcases le_abs.mp hy with hy | hy
    · have hy1 : 1 ≤ x + D := by linarith
      have hg : refined γ (x + D) = cdf (x + D) - γ * ((x + D) ^ 2 - 1) * pdf (x + D) / 6 := by unfold refined; ring
      refine clip01_mono ?_
      have hxs : 1 ≤ x ^ 2 := by
        have : (1 : ℝ) ≤ |x| := by linarith
        rw [← sq_abs]; nlinarith
      have hgx : refined γ x ≤ cdf x := by
        have : 0 ≤ γ * (x ^ 2 - 1) * pdf x := mul_nonneg (mul_nonneg h0 (by linarith)) (pdf_pos x).le
        unfold refined
        nlinarith
      rw [hg]
      generalize hyd : x + D = y at *
      rcases le_abs.mp hx with hx | hx
      · have h1 := cdf_sub_ge (by linarith : 0 ≤ x) (by linarith : x + 1 ≤ y)
        have h2 : γ * (y ^ 2 - 1) * pdf y / 6 ≤ pdf (x + 1) := by
          rw [pdf_ratio (x + 1) y]
          have h3 : γ * (y ^ 2 - 1) / 6 ≤ y ^ 3 / 6 := by
            have : γ * (y ^ 2 - 1) ≤ y * (y ^ 2 - 1) := mul_le_mul_of_nonneg_right (by linarith) (by nlinarith)
            nlinarith
          have h4 : Real.exp y ≤ Real.exp ((y ^ 2 - (x + 1) ^ 2) / 2) := by
            rw [Real.exp_le_exp]
            nlinarith
          have h5 := cube_le_exp (by linarith : 0 ≤ y)
          have h6 := mul_le_mul_of_nonneg_left (h3.trans (h5.trans h4)) (pdf_pos y).le
          linarith
        linarith
      · have h1 : cdf x ≤ cdf 0 := cdf_mono (by linarith)
        have h2 := cdf_sub_ge le_rfl (by linarith : (0 : ℝ) + 1 ≤ y)
        have h3 : γ * (y ^ 2 - 1) * pdf y / 6 ≤ pdf (0 + 1) := by
          rw [pdf_ratio (0 + 1) y]
          set t := (y ^ 2 - 1) / 2 with ht
          have ht0 : 0 ≤ t := by rw [ht]; nlinarith
          have hyt : y ≤ 1 + t := by rw [ht]; nlinarith [sq_nonneg (y - 1)]
          have he : 1 + t + t ^ 2 / 2 + t ^ 3 / 6 ≤ Real.exp t := by
            have := Real.sum_le_exp_of_nonneg ht0 4
            simp [Finset.sum_range_succ, Nat.factorial] at this
            linarith
          have hh : γ * (y ^ 2 - 1) / 6 ≤ 1 + t + t ^ 2 / 2 + t ^ 3 / 6 := by
            have h7 : γ ≤ 30 / 11 * (1 + t) := by linarith
            have h8 : y ^ 2 - 1 = 2 * t := by rw [ht]; ring
            rw [h8]
            have h9 : γ * (2 * t) ≤ 30 / 11 * (1 + t) * (2 * t) := mul_le_mul_of_nonneg_right h7 (by linarith)
            have h10 : 0 ≤ t ^ 3 / 6 - 9 / 22 * t ^ 2 + 1 / 11 * t + 1 := by
              nlinarith [mul_nonneg ht0 (sq_nonneg (t - 3 / 2)), sq_nonneg (t - 3 / 2), sq_nonneg t]
            nlinarith
          have h11 : (y ^ 2 - (0 + 1) ^ 2) / 2 = t := by rw [ht]; ring
          rw [h11]
          have := mul_le_mul_of_nonneg_left (hh.trans he) (pdf_pos y).le
          linarith
        have h4 := h3.trans h2
        linarith
    · exact clipped_le_left h0 (by linarith) (by linarith)
  rw [abs_le] at hγ
  rcases le_total 0 γ with h0 | h0
  · exact key γ x h0 hγ.2 hx hy
  · have := key (-γ) (-(x + D)) (by linarith) (by linarith) (by rwa [abs_neg]) (by
      have : -(x + D) + D = -x := by ring
      rw [this, abs_neg]; exact hx)
    have h1 : -(x + D) + D = -x := by ring
    rw [h1, clipped_neg, clipped_neg, neg_neg] at this
    linarith

end PDP.Analysis.Normal
