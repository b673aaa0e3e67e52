import Verif.Analysis.Normal
import Mathlib.Analysis.Real.Pi.Bounds
import Mathlib.MeasureTheory.Integral.IntegralEqImproper
import Mathlib.Analysis.SpecialFunctions.Gaussian.GaussianIntegral

/-!
# The predicted distribution of the number of users is a distribution, up to its tails (C69)
-/

namespace PDP.Analysis.Normal

open MeasureTheory ProbabilityTheory
open PDP.Analysis (Moments toMoments momentsOf computePmf successes)

/-! ### Moments of independent trials -/

theorem third_le (ps : List ℚ) (h : ∀ p ∈ ps, 0 ≤ p ∧ p ≤ 1) :
    0 ≤ (toMoments ps).var ∧ |(toMoments ps).third| ≤ (toMoments ps).var := by
  induction ps with
  | nil => simp [toMoments, momentsOf]
  | cons p ps ih =>
    obtain ⟨h0, h1⟩ := ih fun q hq => h q (List.mem_cons_of_mem _ hq)
    obtain ⟨hp0, hp1⟩ := h p List.mem_cons_self
    have hv : 0 ≤ p * (1 - p) := mul_nonneg hp0 (by linarith)
    have ht : |p * (1 - p) * (1 - 2 * p)| ≤ p * (1 - p) := by
      rw [abs_mul, abs_of_nonneg hv]
      exact mul_le_of_le_one_right hv (abs_le.mpr ⟨by linarith, by linarith⟩)
    simp only [toMoments, momentsOf, List.map_cons, List.sum_cons] at *
    exact ⟨by linarith, (abs_add_le _ _).trans (add_le_add ht h1)⟩

theorem near_integer (ps : List ℚ) (h : ∀ p ∈ ps, 0 ≤ p ∧ p ≤ 1 ∧ p * (1 - p) < 1 / 9) :
    ∃ k : ℤ, |(toMoments ps).exp - k| ≤ 6 / 5 * (toMoments ps).var := by
  induction ps with
  | nil => exact ⟨0, by simp [toMoments, momentsOf]⟩
  | cons p ps ih =>
    obtain ⟨k, hk⟩ := ih fun q hq => h q (List.mem_cons_of_mem _ hq)
    obtain ⟨hp0, hp1, hp⟩ := h p List.mem_cons_self
    have hj : ∃ j : ℤ, |p - j| ≤ 6 / 5 * (p * (1 - p)) := by
      rcases le_total p (1 / 2) with hh | hh
      · have : p ≤ 1 / 6 := by nlinarith
        refine ⟨0, ?_⟩
        rw [Int.cast_zero, sub_zero, abs_of_nonneg hp0]
        nlinarith
      · have : 5 / 6 ≤ p := by nlinarith
        refine ⟨1, ?_⟩
        rw [Int.cast_one, abs_of_nonpos (by linarith)]
        nlinarith
    obtain ⟨j, hj⟩ := hj
    refine ⟨j + k, ?_⟩
    simp only [toMoments, momentsOf, List.map_cons, List.sum_cons] at *
    have e : p + ps.sum - ((j + k : ℤ) : ℚ) = (p - j) + (ps.sum - k) := by push_cast; ring
    rw [e, mul_add]
    exact (abs_add_le _ _).trans (add_le_add hj hk)

theorem var_mem (ps : List ℚ) (h : ∀ p ∈ ps, 0 ≤ p ∧ p ≤ 1) : ∀ p ∈ ps, p * (1 - p) ≤ (toMoments ps).var := by
  induction ps with
  | nil => simp
  | cons q ps ih =>
    have ht := fun r hr => h r (List.mem_cons_of_mem q hr)
    have h0 := (third_le ps ht).1
    obtain ⟨hq0, hq1⟩ := h q List.mem_cons_self
    have hv : 0 ≤ q * (1 - q) := mul_nonneg hq0 (by linarith)
    intro p hp
    simp only [toMoments, momentsOf, List.map_cons, List.sum_cons] at *
    rcases List.mem_cons.mp hp with rfl | hp
    · linarith
    · have := ih ht p hp
      linarith

theorem exp_mem (ps : List ℚ) (h : ∀ p ∈ ps, 0 ≤ p ∧ p ≤ 1) : 0 ≤ (toMoments ps).exp ∧ (toMoments ps).exp ≤ ps.length := by
  induction ps with
  | nil => simp [toMoments, momentsOf]
  | cons p ps ih =>
    obtain ⟨h0, h1⟩ := ih fun q hq => h q (List.mem_cons_of_mem _ hq)
    obtain ⟨hp0, hp1⟩ := h p List.mem_cons_self
    simp only [toMoments, momentsOf, List.sum_cons, List.length_cons] at *
    push_cast
    exact ⟨by linarith, by linarith⟩

/-- Standard deviation of the number of successes. -/
noncomputable def deviation (ps : List ℚ) : ℝ := Real.sqrt ((toMoments ps).var : ℝ)

/-- Skewness as computed. -/
noncomputable def skew (ps : List ℚ) : ℝ := ((toMoments ps).third : ℝ) / deviation ps ^ 3

theorem skew_le (ps : List ℚ) (h : ∀ p ∈ ps, 0 ≤ p ∧ p ≤ 1) (hs : 0 < deviation ps) :
    |skew ps| ≤ 1 / deviation ps := by
  obtain ⟨h0, h1⟩ := third_le ps h
  have hv : ((toMoments ps).var : ℝ) = deviation ps ^ 2 := by
    rw [deviation, Real.sq_sqrt (by exact_mod_cast h0)]
  have h2 : |((toMoments ps).third : ℝ)| ≤ deviation ps ^ 2 := by rw [← hv]; exact_mod_cast h1
  unfold skew
  rw [abs_div, abs_of_pos (pow_pos hs 3), div_le_div_iff₀ (pow_pos hs 3) hs]
  calc |((toMoments ps).third : ℝ)| * deviation ps ≤ deviation ps ^ 2 * deviation ps := mul_le_mul_of_nonneg_right h2 hs.le
    _ = 1 * deviation ps ^ 3 := by ring

/-- The clipped value at a count. -/
noncomputable def valueAt (ps : List ℚ) (i : ℤ) : ℝ :=
  clipped (skew ps) (((i : ℝ) + 0.5 - ((toMoments ps).exp : ℝ)) / deviation ps)

theorem valueAt_step (ps : List ℚ) (h : ∀ p ∈ ps, 0 ≤ p ∧ p ≤ 1) (hs : 0 < deviation ps) (i : ℤ) :
    valueAt ps i ≤ valueAt ps (i + 1) := by
  have hg := skew_le ps h hs
  have hnext : (((i + 1 : ℤ) : ℝ) + 0.5 - ((toMoments ps).exp : ℝ)) / deviation ps
      = ((i : ℝ) + 0.5 - ((toMoments ps).exp : ℝ)) / deviation ps + 1 / deviation ps := by
    push_cast
    ring
  unfold valueAt
  rw [hnext]
  by_cases hbig : 1 / 3 ≤ deviation ps
  · refine clipped_mono (hg.trans ?_) (by have := (one_div_pos.mpr hs); linarith)
    rw [div_le_iff₀ hs]
    linarith
  · push Not at hbig
    have h0 := (third_le ps h).1
    have hv : ((toMoments ps).var : ℝ) = deviation ps ^ 2 := by
      rw [deviation, Real.sq_sqrt (by exact_mod_cast h0)]
    have hv9 : ((toMoments ps).var : ℝ) < 1 / 9 := by rw [hv]; nlinarith
    have hv9' : (toMoments ps).var < 1 / 9 := by
      have : (((toMoments ps).var : ℚ) : ℝ) < ((1 / 9 : ℚ) : ℝ) := by push_cast; exact hv9
      exact_mod_cast this
    obtain ⟨k, hk⟩ := near_integer ps fun p hp => ⟨(h p hp).1, (h p hp).2, lt_of_le_of_lt (var_mem ps h p hp) hv9'⟩
    have hk' : |((toMoments ps).exp : ℝ) - k| ≤ 2 / 15 := by
      have h2 : |(toMoments ps).exp - (k : ℚ)| ≤ 2 / 15 := hk.trans (by linarith)
      have : ((|(toMoments ps).exp - (k : ℚ)| : ℚ) : ℝ) ≤ ((2 / 15 : ℚ) : ℝ) := by exact_mod_cast h2
      push_cast at this
      exact this
    rw [abs_le] at hk'
    have hfar : ∀ j : ℤ, 11 / 30 ≤ |(j : ℝ) + 0.5 - ((toMoments ps).exp : ℝ)| := by
      intro j
      rw [le_abs]
      rcases le_or_gt k j with hj | hj
      · left
        have : (k : ℝ) ≤ j := by exact_mod_cast hj
        have e : (0.5 : ℝ) = 1 / 2 := by norm_num
        rw [e]
        linarith [hk'.1, hk'.2]
      · right
        have : (j : ℝ) + 1 ≤ k := by exact_mod_cast hj
        have e : (0.5 : ℝ) = 1 / 2 := by norm_num
        rw [e]
        linarith [hk'.1, hk'.2]
    have hscaled : ∀ j : ℤ, 11 / 30 * (1 / deviation ps) ≤ |((j : ℝ) + 0.5 - ((toMoments ps).exp : ℝ)) / deviation ps| := by
      intro j
      rw [abs_div, abs_of_pos hs, mul_one_div]
      exact div_le_div_of_nonneg_right (hfar j) hs.le
    refine clipped_step hg ?_ (hscaled i) ?_
    · rw [le_div_iff₀ hs]; linarith
    · rw [← hnext]; exact hscaled (i + 1)

theorem valueAt_mem (ps : List ℚ) (i : ℤ) : 0 ≤ valueAt ps i ∧ valueAt ps i ≤ 1 := ⟨clip01_nonneg _, clip01_le _⟩

/-! ### The list -/

theorem diffs_map_range (f : ℕ → ℝ) (k : ℕ) : diffs ((List.range (k + 1)).map f) = (List.range k).map fun i => f (i + 1) - f i := by
  induction k generalizing f with
  | zero => rfl
  | succ k ih =>
    have h1 : ∀ (m : ℕ) (g : ℕ → ℝ), (List.range (m + 1)).map g = g 0 :: (List.range m).map fun i => g (i + 1) := by
      intro m g
      rw [List.range_succ_eq_map, List.map_cons, List.map_map]
      rfl
    have h2 := ih fun i => f (i + 1)
    rw [h1 (k + 1) f, h1 k fun i => f (i + 1), h1 k fun i => f (i + 1) - f i, diffs, ← h1 k fun i => f (i + 1), h2]

theorem sum_telescope (f : ℕ → ℝ) (k : ℕ) : ((List.range k).map fun i => f (i + 1) - f i).sum = f k - f 0 := by
  induction k with
  | zero => simp
  | succ k ih =>
    rw [List.range_succ, List.map_append, List.sum_append, ih]
    simp

/-- First and last count of the approximation. -/
noncomputable def firstCount (ps : List ℚ) : ℤ := max 0 ⌊((toMoments ps).exp : ℝ) - 8 * deviation ps⌋

noncomputable def lastCount (ps : List ℚ) : ℤ := min (ps.length : ℤ) (roundEven (((toMoments ps).exp : ℝ) + 8 * deviation ps))

theorem roundEven_ge (x : ℝ) : x - 1 / 2 ≤ roundEven x := by
  have h1 := Int.floor_add_fract x
  have h2 := Int.fract_lt_one x
  unfold roundEven
  split_ifs <;> push_cast <;> linarith

theorem roundEven_le (x : ℝ) : (roundEven x : ℝ) ≤ x + 1 / 2 := by
  have h1 := Int.floor_add_fract x
  have h2 := Int.fract_nonneg x
  unfold roundEven
  split_ifs <;> push_cast <;> linarith

theorem roundEven_int (k : ℤ) : roundEven (k : ℝ) = k := by
  unfold roundEven
  rw [Int.fract_intCast, if_pos (by norm_num), Int.floor_intCast]

theorem first_le_last (ps : List ℚ) (h : ∀ p ∈ ps, 0 ≤ p ∧ p ≤ 1) (hs : 0 < deviation ps) : firstCount ps ≤ lastCount ps := by
  obtain ⟨h0, h1⟩ := exp_mem ps h
  have h0' : (0 : ℝ) ≤ ((toMoments ps).exp : ℝ) := by exact_mod_cast h0
  have h1' : ((toMoments ps).exp : ℝ) ≤ ps.length := by exact_mod_cast h1
  have hf : (⌊((toMoments ps).exp : ℝ) - 8 * deviation ps⌋ : ℝ) ≤ ((toMoments ps).exp : ℝ) - 8 * deviation ps := Int.floor_le _
  have hr := roundEven_ge (((toMoments ps).exp : ℝ) + 8 * deviation ps)
  refine le_min (max_le (by positivity) ?_) (max_le ?_ ?_)
  · have : (⌊((toMoments ps).exp : ℝ) - 8 * deviation ps⌋ : ℝ) ≤ ((ps.length : ℤ) : ℝ) := by push_cast; linarith
    exact_mod_cast this
  · have : (-1 : ℝ) < roundEven (((toMoments ps).exp : ℝ) + 8 * deviation ps) := by linarith
    have : (-1 : ℤ) < roundEven (((toMoments ps).exp : ℝ) + 8 * deviation ps) := by exact_mod_cast this
    omega
  · have : (⌊((toMoments ps).exp : ℝ) - 8 * deviation ps⌋ : ℝ) < roundEven (((toMoments ps).exp : ℝ) + 8 * deviation ps) + 1 := by
      linarith
    have : ⌊((toMoments ps).exp : ℝ) - 8 * deviation ps⌋ < roundEven (((toMoments ps).exp : ℝ) + 8 * deviation ps) + 1 := by
      exact_mod_cast this
    omega

/-- The result as a list of differences of `valueAt`. -/
theorem fromMoments_eq (ps : List ℚ) (h : ∀ p ∈ ps, 0 ≤ p ∧ p ≤ 1) (hs : 0 < deviation ps) :
    fromMoments (toMoments ps) = (firstCount ps, (List.range (lastCount ps - firstCount ps + 1).toNat).map fun i : ℕ =>
      valueAt ps (firstCount ps + i) - valueAt ps (firstCount ps - 1 + i)) := by
  have hle := first_le_last ps h hs
  have hne : Real.sqrt ((toMoments ps).var : ℝ) ≠ 0 := ne_of_gt hs
  unfold fromMoments pmfApproximation
  simp only [if_neg hne]
  refine Prod.ext rfl ?_
  have hlen : (lastCount ps + 1 - (firstCount ps - 1)).toNat = (lastCount ps - firstCount ps + 1).toNat + 1 := by omega
  show diffs (((List.range (lastCount ps + 1 - (firstCount ps - 1)).toNat).map fun i : ℕ => firstCount ps - 1 + (i : ℤ)).map
    (valueAt ps)) = _
  rw [hlen, List.map_map, diffs_map_range]
  refine List.map_congr_left fun i _ => ?_
  show valueAt ps (firstCount ps - 1 + ((i + 1 : ℕ) : ℤ)) - _ = _
  have : firstCount ps - 1 + ((i + 1 : ℕ) : ℤ) = firstCount ps + i := by push_cast; ring
  rw [this]
  rfl

theorem fromMoments_sum (ps : List ℚ) (h : ∀ p ∈ ps, 0 ≤ p ∧ p ≤ 1) (hs : 0 < deviation ps) :
    (fromMoments (toMoments ps)).2.sum = valueAt ps (lastCount ps) - valueAt ps (firstCount ps - 1) := by
  have hle := first_le_last ps h hs
  rw [fromMoments_eq ps h hs]
  have := sum_telescope (fun i : ℕ => valueAt ps (firstCount ps - 1 + i)) (lastCount ps - firstCount ps + 1).toNat
  simp only at this ⊢
  have e : ∀ i : ℕ, valueAt ps (firstCount ps + i) = valueAt ps (firstCount ps - 1 + ((i + 1 : ℕ) : ℤ)) := by
    intro i; congr 1; push_cast; ring
  simp only [e]
  rw [this]
  congr 2
  · omega
  · simp

theorem deviation_zero (ps : List ℚ) (h : ∀ p ∈ ps, 0 ≤ p ∧ p ≤ 1) (hs : deviation ps = 0) : ∀ p ∈ ps, p = 0 ∨ p = 1 := by
  intro p hp
  have h0 := (third_le ps h).1
  have hv : (toMoments ps).var = 0 := by
    have : ((toMoments ps).var : ℝ) = 0 := by
      rw [deviation, Real.sqrt_eq_zero (by exact_mod_cast h0)] at hs
      exact hs
    exact_mod_cast this
  have h1 := var_mem ps h p hp
  rw [hv] at h1
  have h2 : p * (1 - p) = 0 := le_antisymm h1 (mul_nonneg (h p hp).1 (by linarith [(h p hp).2]))
  rcases mul_eq_zero.mp h2 with h3 | h3
  · exact Or.inl h3
  · exact Or.inr (by linarith)

theorem certain_moments (ps : List ℚ) (h : ∀ p ∈ ps, p = 0 ∨ p = 1) :
    toMoments ps = ⟨ps.length, (ps.count 1 : ℚ), 0, 0⟩ := by
  induction ps with
  | nil => simp [toMoments, momentsOf]
  | cons p ps ih =>
    have := ih fun q hq => h q (List.mem_cons_of_mem _ hq)
    simp only [toMoments, momentsOf, Moments.mk.injEq, List.map_cons, List.sum_cons, List.length_cons] at this ⊢
    obtain ⟨_, h1, h2, h3⟩ := this
    rw [h1, h2, h3]
    rcases h p List.mem_cons_self with rfl | rfl
    · simp
    · simp [add_comm]

/-! ### C69 -/

/-- The number of users is certain when every user is kept with probability 0 or 1: the result is exact. -/
theorem C69_certain (ps : List ℚ) (h : ∀ p ∈ ps, p = 0 ∨ p = 1) :
    fromMoments (toMoments ps) = ((ps.count 1 : ℤ), [1]) := by
  rw [certain_moments ps h]
  unfold fromMoments pmfApproximation
  simp only [Rat.cast_zero, Real.sqrt_zero, if_true]
  have := roundEven_int (ps.count 1 : ℤ)
  push_cast at this ⊢
  rw [this]

example : fromMoments (toMoments [1, 0, 1, 1]) = (3, [1]) := by
  rw [C69_certain _ (by decide)]
  rfl

/-- **C69.** Whatever probabilities users are kept with, the approximation lists counts between 0 and the number of users, with
probabilities which are not negative and sum to at most 1. -/
theorem C69_is_distribution (ps : List ℚ) (h : ∀ p ∈ ps, 0 ≤ p ∧ p ≤ 1) :
    let r := fromMoments (toMoments ps)
    0 ≤ r.1 ∧ r.1 + r.2.length ≤ ps.length + 1 ∧ r.2 ≠ [] ∧ (∀ q ∈ r.2, 0 ≤ q) ∧ r.2.sum ≤ 1 := by
  intro r
  rcases (Real.sqrt_nonneg ((toMoments ps).var : ℝ)).eq_or_lt with hs | hs
  · have hr : r = ((ps.count 1 : ℤ), [1]) := C69_certain ps (deviation_zero ps h hs.symm)
    rw [hr]
    have := List.count_le_length (a := (1 : ℚ)) (l := ps)
    refine ⟨by positivity, by simpa using this, by simp, by simp, by simp⟩
  · have hs : 0 < deviation ps := hs
    have hle := first_le_last ps h hs
    have hsum : r.2.sum = _ := fromMoments_sum ps h hs
    have hr : r = _ := fromMoments_eq ps h hs
    have hf0 : 0 ≤ firstCount ps := le_max_left _ _
    have hln : lastCount ps ≤ ps.length := min_le_left _ _
    refine ⟨by rw [hr]; exact hf0, ?_, ?_, ?_, ?_⟩
    · rw [hr]
      simp only [List.length_map, List.length_range]
      omega
    · rw [hr]
      simp only [ne_eq, List.map_eq_nil_iff, List.range_eq_nil]
      omega
    · rw [hr]
      intro q hq
      simp only [List.mem_map] at hq
      obtain ⟨i, _, rfl⟩ := hq
      have := valueAt_step ps h hs (firstCount ps - 1 + i)
      have e : firstCount ps - 1 + (i : ℤ) + 1 = firstCount ps + i := by ring
      rw [e] at this
      linarith
    · rw [hsum]
      have h1 := valueAt_mem ps (lastCount ps)
      have h2 := valueAt_mem ps (firstCount ps - 1)
      linarith [h1.2, h2.1]

/-! ### What the listed probabilities are -/

/-- Specification: a density with the moments of the standardised number of users (see `C69_density_moments`). -/
noncomputable def density (γ x : ℝ) : ℝ := gaussianPDFReal 0 1 x * (1 + γ * (x ^ 3 - 3 * x) / 6)

theorem integrable_pow_pdf (k : ℕ) : Integrable fun x : ℝ => x ^ k * pdf x := by
  have h1 := integrable_rpow_mul_exp_neg_mul_sq (by norm_num : (0 : ℝ) < 1 / 2) (by
    have : (0 : ℝ) ≤ k := Nat.cast_nonneg k
    linarith : (-1 : ℝ) < (k : ℝ))
  refine (h1.const_mul (Real.sqrt (2 * Real.pi))⁻¹).congr (Filter.Eventually.of_forall fun x => ?_)
  simp only [Real.rpow_natCast, pdf_eq]
  have : -(1 / 2) * x ^ 2 = -(x ^ 2) / 2 := by ring
  rw [this]
  ring

theorem moment_zero : ∫ x : ℝ, x ^ 0 * pdf x = 1 := by
  simp only [pow_zero, one_mul]
  exact integral_gaussianPDFReal_eq_one 0 one_ne_zero

theorem moment_one : ∫ x : ℝ, x ^ 1 * pdf x = 0 := by
  have h1 := integral_eq_zero_of_hasDerivAt_of_integrable hasDerivAt_pdf
    (((integrable_pow_pdf 1).neg).congr (Filter.Eventually.of_forall fun x => by simp))
    ((integrable_pow_pdf 0).congr (Filter.Eventually.of_forall fun x => by simp))
  have h2 : (fun x : ℝ => -x * pdf x) = fun x => -(x ^ 1 * pdf x) := by funext x; ring
  rw [h2, integral_neg] at h1
  linarith

theorem moment_step (k : ℕ) : ∫ x : ℝ, x ^ (k + 2) * pdf x = (k + 1) * ∫ x : ℝ, x ^ k * pdf x := by
  have hd : ∀ x : ℝ, HasDerivAt (fun x => x ^ (k + 1) * pdf x) (((k : ℝ) + 1) * (x ^ k * pdf x) - x ^ (k + 2) * pdf x) x := by
    intro x
    refine ((hasDerivAt_pow (k + 1) x).mul (hasDerivAt_pdf x)).congr_deriv ?_
    rw [Nat.add_sub_cancel]
    push_cast
    ring
  have h1 := integral_eq_zero_of_hasDerivAt_of_integrable hd
    (((integrable_pow_pdf k).const_mul _).sub (integrable_pow_pdf (k + 2))) (integrable_pow_pdf (k + 1))
  rw [integral_sub ((integrable_pow_pdf k).const_mul _) (integrable_pow_pdf (k + 2)), integral_const_mul] at h1
  linarith

theorem pow_density (γ : ℝ) (k : ℕ) : (fun x => x ^ k * density γ x)
    = fun x => x ^ k * pdf x + (γ / 6 * (x ^ (k + 3) * pdf x) - γ / 2 * (x ^ (k + 1) * pdf x)) := by
  funext x
  unfold density pdf
  ring

theorem integrable_pow_density (γ : ℝ) (k : ℕ) : Integrable fun x => x ^ k * density γ x := by
  rw [pow_density]
  exact (integrable_pow_pdf k).add (((integrable_pow_pdf (k + 3)).const_mul _).sub ((integrable_pow_pdf (k + 1)).const_mul _))

theorem integral_pow_density (γ : ℝ) (k : ℕ) : ∫ x, x ^ k * density γ x
    = (∫ x : ℝ, x ^ k * pdf x) + (γ / 6 * (∫ x : ℝ, x ^ (k + 3) * pdf x) - γ / 2 * ∫ x : ℝ, x ^ (k + 1) * pdf x) := by
  have h1 : Integrable fun x : ℝ => γ / 6 * (x ^ (k + 3) * pdf x) - γ / 2 * (x ^ (k + 1) * pdf x) :=
    ((integrable_pow_pdf (k + 3)).const_mul _).sub ((integrable_pow_pdf (k + 1)).const_mul _)
  rw [pow_density, integral_add (integrable_pow_pdf k) h1,
    integral_sub ((integrable_pow_pdf (k + 3)).const_mul _) ((integrable_pow_pdf (k + 1)).const_mul _),
    integral_const_mul, integral_const_mul]

/-- The density behind the approximation has total mass 1, mean 0, variance 1 and third moment `γ`. -/
theorem C69_density_moments (γ : ℝ) :
    ∫ x, density γ x = 1 ∧ ∫ x, x * density γ x = 0 ∧ ∫ x, x ^ 2 * density γ x = 1 ∧ ∫ x, x ^ 3 * density γ x = γ := by
  have m0 := moment_zero
  have m1 := moment_one
  have m2 := moment_step 0
  have m3 := moment_step 1
  have m4 := moment_step 2
  have m5 := moment_step 3
  have m6 := moment_step 4
  norm_num only [] at m0 m1 m2 m3 m4 m5 m6
  have d0 := integral_pow_density γ 0
  have d1 := integral_pow_density γ 1
  have d2 := integral_pow_density γ 2
  have d3 := integral_pow_density γ 3
  norm_num only [] at d0 d1 d2 d3
  simp only [pow_zero, pow_one, one_mul] at *
  refine ⟨?_, ?_, ?_, ?_⟩
  · rw [d0]; simp [*]
  · rw [d1]; simp [*]; ring
  · rw [d2]; simp [*]
  · rw [d3]; simp [*]; ring

theorem refined_eq_integral (γ x : ℝ) : refined γ x = ∫ t in Set.Iic x, density γ t := by
  have h0 : Integrable (density γ) := (integrable_pow_density γ 0).congr (Filter.Eventually.of_forall fun x => by simp)
  have h1 : ∀ t ∈ Set.Iic x, HasDerivAt (refined γ) (density γ t) t := fun t _ => hasDerivAt_refined γ t
  rw [integral_Iic_of_hasDerivAt_of_tendsto' h1 h0.integrableOn (tendsto_refined_atBot γ), sub_zero]

/-- The probability listed for count `k` is the mass which the density, moved to the mean of the number of users and stretched by its
standard deviation, puts between `k - 1/2` and `k + 1/2`, where the distribution function is clipped to `[0, 1]`. -/
theorem C69_entries (ps : List ℚ) (h : ∀ p ∈ ps, 0 ≤ p ∧ p ≤ 1) (j : ℕ)
    (hj : j < (fromMoments (toMoments ps)).2.length) (σ γ : ℝ) (hσ : 0 < σ)
    (hσ2 : σ ^ 2 = (ps.map fun p : ℚ => (p * (1 - p) : ℝ)).sum)
    (hγ : γ * σ ^ 3 = (ps.map fun p : ℚ => (p * (1 - p) * (1 - 2 * p) : ℝ)).sum) :
    let k : ℤ := (fromMoments (toMoments ps)).1 + j
    let F : ℝ → ℝ := fun t => min (max (∫ x in Set.Iic ((t - (ps.map fun p : ℚ => (p : ℝ)).sum) / σ), density γ x) 0) 1
    (fromMoments (toMoments ps)).2[j] = F (k + 1 / 2) - F (k - 1 / 2) := by
  intro k F
  have cast_sum : ∀ (f : ℚ → ℚ) (l : List ℚ), (((l.map f).sum : ℚ) : ℝ) = (l.map fun p => ((f p : ℚ) : ℝ)).sum := by
    intro f l
    induction l with
    | nil => simp
    | cons a l ih => simp only [List.map_cons, List.sum_cons, Rat.cast_add, ih]
  have e1 : ((toMoments ps).exp : ℝ) = (ps.map fun p : ℚ => (p : ℝ)).sum := by
    have h1 := cast_sum (fun p => p) ps
    rw [List.map_id'] at h1
    exact h1
  have e2 : ((toMoments ps).var : ℝ) = σ ^ 2 := by
    rw [hσ2]
    refine (cast_sum (fun p => p * (1 - p)) ps).trans (congrArg List.sum (List.map_congr_left fun p _ => ?_))
    push_cast
    rfl
  have e3 : ((toMoments ps).third : ℝ) = γ * σ ^ 3 := by
    rw [hγ]
    refine (cast_sum (fun p => p * (1 - p) * (1 - 2 * p)) ps).trans
      (congrArg List.sum (List.map_congr_left fun p _ => ?_))
    push_cast
    rfl
  have ed : deviation ps = σ := by rw [deviation, e2, Real.sqrt_sq hσ.le]
  have eg : skew ps = γ := by rw [skew, ed, e3, mul_div_cancel_right₀ _ (pow_ne_zero 3 hσ.ne')]
  have hs : 0 < deviation ps := by rw [ed]; exact hσ
  have ev : ∀ i : ℤ, valueAt ps i = F (i + 1 / 2) := by
    intro i
    have e5 : (0.5 : ℝ) = 1 / 2 := by norm_num
    unfold valueAt clipped clip01
    rw [ed, eg, e1, refined_eq_integral, e5]
  have hk : k = firstCount ps + j := by
    show (fromMoments (toMoments ps)).1 + (j : ℤ) = _
    rw [fromMoments_eq ps h hs]
  have hget : (fromMoments (toMoments ps)).2[j] = valueAt ps (firstCount ps + j) - valueAt ps (firstCount ps - 1 + j) := by
    simp only [fromMoments_eq ps h hs, List.getElem_map, List.getElem_range]
  rw [hget, ev, ev, hk]
  congr 2
  push_cast
  ring

/-- The listed counts are those within eight standard deviations of the mean, as far as they lie between 0 and the number of users. -/
theorem C69_range (ps : List ℚ) (h : ∀ p ∈ ps, 0 ≤ p ∧ p ≤ 1) (k : ℤ) (hk0 : 0 ≤ k) (hkn : k ≤ ps.length)
    (σ : ℝ) (hσ : 0 < σ) (hσ2 : σ ^ 2 = ((toMoments ps).var : ℝ)) (hk : |(k : ℝ) - ((toMoments ps).exp : ℝ)| ≤ 8 * σ - 1 / 2) :
    (fromMoments (toMoments ps)).1 ≤ k ∧ k < (fromMoments (toMoments ps)).1 + (fromMoments (toMoments ps)).2.length := by
  have ed : deviation ps = σ := by rw [deviation, ← hσ2, Real.sqrt_sq hσ.le]
  have hs : 0 < deviation ps := by rw [ed]; exact hσ
  have hle := first_le_last ps h hs
  rw [abs_le] at hk
  have h1 : firstCount ps ≤ k := by
    refine max_le hk0 ?_
    have h2 := Int.floor_le (((toMoments ps).exp : ℝ) - 8 * deviation ps)
    rw [ed] at h2 ⊢
    have h3 : (⌊((toMoments ps).exp : ℝ) - 8 * σ⌋ : ℝ) ≤ k := by linarith
    exact_mod_cast h3
  have h2 : k ≤ lastCount ps := by
    refine le_min hkn ?_
    have h2 := roundEven_ge (((toMoments ps).exp : ℝ) + 8 * deviation ps)
    rw [ed] at h2 ⊢
    have h3 : (k : ℝ) ≤ roundEven (((toMoments ps).exp : ℝ) + 8 * σ) := by linarith
    exact_mod_cast h3
  rw [fromMoments_eq ps h hs]
  simp only [List.length_map, List.length_range]
  omega

/-- Conversely, no count further away than that (up to rounding) is listed. -/
theorem C69_range_only (ps : List ℚ) (h : ∀ p ∈ ps, 0 ≤ p ∧ p ≤ 1) (k : ℤ)
    (σ : ℝ) (hσ : 0 < σ) (hσ2 : σ ^ 2 = ((toMoments ps).var : ℝ))
    (hk : (fromMoments (toMoments ps)).1 ≤ k ∧ k < (fromMoments (toMoments ps)).1 + (fromMoments (toMoments ps)).2.length) :
    |(k : ℝ) - ((toMoments ps).exp : ℝ)| ≤ 8 * σ + 1 := by
  have ed : deviation ps = σ := by rw [deviation, ← hσ2, Real.sqrt_sq hσ.le]
  have hs : 0 < deviation ps := by rw [ed]; exact hσ
  have hle := first_le_last ps h hs
  rw [fromMoments_eq ps h hs] at hk
  simp only [List.length_map, List.length_range] at hk
  have h1 : (⌊((toMoments ps).exp : ℝ) - 8 * deviation ps⌋ : ℝ) ≤ k := by
    exact_mod_cast (le_max_right _ _).trans hk.1
  have h2 : (k : ℝ) ≤ roundEven (((toMoments ps).exp : ℝ) + 8 * deviation ps) := by
    have : k ≤ lastCount ps := by omega
    exact_mod_cast this.trans (min_le_right _ _)
  have h3 := Int.lt_floor_add_one (((toMoments ps).exp : ℝ) - 8 * deviation ps)
  have h4 := roundEven_le (((toMoments ps).exp : ℝ) + 8 * deviation ps)
  rw [ed] at h1 h2 h3 h4
  rw [abs_le]
  constructor <;> linarith

theorem replicate_moments (n : ℕ) (p : ℚ) :
    toMoments (List.replicate n p) = ⟨n, n * p, n * (p * (1 - p)), n * (p * (1 - p) * (1 - 2 * p))⟩ := by
  simp [toMoments, momentsOf]

/-- 400 users kept with probability 1/2 each (mean 200, standard deviation 10, skewness 0): the counts 121 to 279 are listed. -/
example (k : ℤ) (h1 : 121 ≤ k) (h2 : k ≤ 279) : let r := fromMoments (toMoments (List.replicate 400 (1 / 2)))
    r.1 ≤ k ∧ k < r.1 + r.2.length := by
  have h1' : (121 : ℝ) ≤ k := by exact_mod_cast h1
  have h2' : (k : ℝ) ≤ 279 := by exact_mod_cast h2
  refine C69_range _ (by intro p hp; rw [List.eq_of_mem_replicate hp]; norm_num) k (by omega) (by rw [List.length_replicate]; omega) 10 (by norm_num) ?_ ?_
  · rw [replicate_moments]; norm_num
  · rw [replicate_moments, abs_le]; constructor <;> norm_num <;> linarith

/-- The hypotheses of `C69_entries` for 300 users kept with probability 1/4 (standard deviation 7.5, skewness 1/15) and the first listed
count. -/
example : ∃ hj : 0 < (fromMoments (toMoments (List.replicate 300 (1 / 4)))).2.length,
    (fromMoments (toMoments (List.replicate 300 (1 / 4)))).2[0] = (let k : ℤ := (fromMoments (toMoments (List.replicate 300 (1 / 4)))).1 + (0 : ℕ)
      let F : ℝ → ℝ := fun t => min (max (∫ x in Set.Iic ((t - ((List.replicate 300 (1 / 4)).map fun p : ℚ => (p : ℝ)).sum) / (7.5 : ℝ)),
        density (1 / 15) x) 0) 1
      F (k + 1 / 2) - F (k - 1 / 2)) := by
  have hp : ∀ p ∈ List.replicate 300 (1 / 4 : ℚ), 0 ≤ p ∧ p ≤ 1 := by
    intro p hp; rw [List.eq_of_mem_replicate hp]; norm_num
  have hj : 0 < (fromMoments (toMoments (List.replicate 300 (1 / 4)))).2.length :=
    List.length_pos_of_ne_nil (C69_is_distribution _ hp).2.2.1
  exact ⟨hj, C69_entries _ hp 0 hj 7.5 (1 / 15) (by norm_num) (by rw [List.map_replicate, List.sum_replicate, nsmul_eq_mul]; norm_num)
    (by rw [List.map_replicate, List.sum_replicate, nsmul_eq_mul]; norm_num)⟩

/-- `per_partition_combiners.py:137-140`: the sum over `enumerate(pmf.probabilities, pmf.start)`, `keep n` is
`probability_of_keep(n)` of the selection strategy. -/
noncomputable def predictedKeep (keep : ℤ → ℝ) (pmf : ℤ × List ℝ) : ℝ :=
  (pmf.2.zipIdx 0).foldl (fun acc e => acc + e.1 * keep (pmf.1 + (e.2 : ℤ))) 0

/-- The predicted probability weighs the probability of keeping a partition with `start + j` users with the `j`-th listed
probability. -/
theorem C69_keep_sum (keep : ℤ → ℝ) (start : ℤ) (l : List ℝ) :
    predictedKeep keep (start, l) = ∑ j : Fin l.length, l[j] * keep (start + (j : ℕ)) := by
  have key : ∀ (l : List ℝ) (i : ℕ) (acc : ℝ),
      (l.zipIdx i).foldl (fun acc e => acc + e.1 * keep (start + (e.2 : ℤ))) acc
        = acc + ∑ j : Fin l.length, l[j] * keep (start + ((i + j : ℕ) : ℤ)) := by
    intro l
    induction l with
    | nil => intro i acc; simp
    | cons q l ih =>
      intro i acc
      rw [List.zipIdx_cons, List.foldl_cons, ih]
      have : ∀ f : Fin (q :: l).length → ℝ, ∑ j, f j = f ⟨0, by simp⟩ + ∑ j : Fin l.length, f ⟨j + 1, by simp⟩ :=
        fun f => Fin.sum_univ_succ f
      rw [this, ← add_assoc]
      congr 1
      refine Finset.sum_congr rfl fun j _ => ?_
      have e : i + 1 + (j : ℕ) = i + (j + 1) := by ring
      simp [e]
  have := key l 0 0
  simp only [zero_add] at this
  exact this

example : predictedKeep (fun n => if 5 ≤ n then 1 else 0) (3, [1 / 8, 1 / 4, 1 / 2, 1 / 8]) = 5 / 8 := by
  rw [C69_keep_sum]
  simp [Fin.sum_univ_succ]
  norm_num

theorem foldl_weights (keep : ℤ → ℝ) (start : ℤ) (h : ∀ k, 0 ≤ keep k ∧ keep k ≤ 1) : ∀ (l : List ℝ) (j : ℕ) (acc : ℝ),
    (∀ q ∈ l, 0 ≤ q) →
    acc ≤ (l.zipIdx j).foldl (fun acc e => acc + e.1 * keep (start + (e.2 : ℤ))) acc ∧
      (l.zipIdx j).foldl (fun acc e => acc + e.1 * keep (start + (e.2 : ℤ))) acc ≤ acc + l.sum := by
  intro l
  induction l with
  | nil => intro j acc _; simp
  | cons q l ih =>
    intro j acc hq
    have hq0 := hq q List.mem_cons_self
    obtain ⟨h1, h2⟩ := ih (j + 1) (acc + q * keep (start + (j : ℤ))) fun r hr => hq r (List.mem_cons_of_mem _ hr)
    have h3 := mul_nonneg hq0 (h (start + (j : ℤ))).1
    have h4 := mul_le_of_le_one_right hq0 (h (start + (j : ℤ))).2
    rw [List.zipIdx_cons, List.foldl_cons, List.sum_cons]
    exact ⟨by linarith, by linarith⟩

/-- The predicted probability of keeping a partition is a probability. -/
theorem C69_keep_probability (keep : ℤ → ℝ) (hk : ∀ k, 0 ≤ keep k ∧ keep k ≤ 1) (ps : List ℚ)
    (h : ∀ p ∈ ps, 0 ≤ p ∧ p ≤ 1) :
    0 ≤ predictedKeep keep (fromMoments (toMoments ps)) ∧ predictedKeep keep (fromMoments (toMoments ps)) ≤ 1 := by
  obtain ⟨_, _, _, h1, h2⟩ := C69_is_distribution ps h
  have := foldl_weights keep (fromMoments (toMoments ps)).1 hk (fromMoments (toMoments ps)).2 0 0 h1
  unfold predictedKeep
  exact ⟨this.1, by linarith [this.2]⟩

example : ∃ p, p = predictedKeep (fun n => if 90 ≤ n then 1 else 0) (fromMoments (toMoments (List.replicate 150 (1 / 2)))) ∧
    0 ≤ p ∧ p ≤ 1 :=
  ⟨_, rfl, C69_keep_probability _ (fun k => by split_ifs <;> norm_num) _ (by
    intro p hp; rw [List.eq_of_mem_replicate hp]; norm_num)⟩

/-! ### The tails -/

theorem exp_neg_32 : Real.exp (-32) ≤ 2 / 10 ^ 14 := by
  have h1 : (2.7 : ℝ) ≤ Real.exp 1 := by have := Real.exp_one_gt_d9; linarith
  have h2 : (2.7 : ℝ) ^ 32 ≤ Real.exp 32 := by
    have := pow_le_pow_left₀ (by norm_num) h1 32
    rw [← Real.exp_nat_mul] at this
    simpa using this
  rw [Real.exp_neg, inv_le_comm₀ (Real.exp_pos _) (by norm_num)]
  refine le_trans ?_ h2
  norm_num

theorem sqrt_two_pi : (2.5 : ℝ) ≤ Real.sqrt (2 * Real.pi) ∧ Real.sqrt (2 * Real.pi) ≤ 2.6 := by
  have h1 := Real.pi_gt_d2
  have h2 := Real.pi_lt_d2
  exact ⟨Real.le_sqrt_of_sq_le (by norm_num at *; linarith), Real.sqrt_le_iff.mpr ⟨by norm_num, by norm_num at *; linarith⟩⟩

/-- Far in the left tail the approximation is tiny. -/
theorem refined_tail {γ x : ℝ} (hγ : |γ| ≤ 3) (hx : x ≤ -8) : refined γ x ≤ 1 / 10 ^ 12 / 2 := by
  have h1 := cdf_le_pdf (by linarith : x ≤ -1)
  have hp := (pdf_pos x).le
  have h2 : γ * (1 - x * x) * pdf x / 6 ≤ x ^ 2 / 2 * pdf x := by
    rw [abs_le] at hγ
    have : γ * (1 - x * x) ≤ 3 * x ^ 2 := by
      nlinarith [mul_nonneg (by linarith [hγ.1] : 0 ≤ γ + 3) (by nlinarith : 0 ≤ x ^ 2 - 1)]
    have := mul_le_mul_of_nonneg_right this hp
    linarith
  have h3 : (1 + x ^ 2 / 2) * pdf x ≤ (1 / 2.5) * (33 * Real.exp (-32)) := by
    rw [pdf_eq]
    set t := x ^ 2 / 2 - 32 with ht
    have ht0 : 0 ≤ t := by rw [ht]; nlinarith
    have e1 : -(x ^ 2) / 2 = -32 + -t := by rw [ht]; ring
    have e2 : 1 + x ^ 2 / 2 = 33 + t := by rw [ht]; ring
    rw [e1, e2, Real.exp_add]
    have h4 : (33 + t) * Real.exp (-t) ≤ 33 := by
      rw [Real.exp_neg, ← div_eq_mul_inv, div_le_iff₀ (Real.exp_pos _)]
      have := Real.add_one_le_exp t
      nlinarith
    have h5 : (Real.sqrt (2 * Real.pi))⁻¹ ≤ 1 / 2.5 := by
      rw [one_div]
      exact inv_anti₀ (by norm_num) sqrt_two_pi.1
    calc (33 + t) * ((Real.sqrt (2 * Real.pi))⁻¹ * (Real.exp (-32) * Real.exp (-t)))
        = (Real.sqrt (2 * Real.pi))⁻¹ * (((33 + t) * Real.exp (-t)) * Real.exp (-32)) := by ring
      _ ≤ (1 / 2.5) * (33 * Real.exp (-32)) := by
        refine mul_le_mul h5 (mul_le_mul_of_nonneg_right h4 (Real.exp_pos _).le) ?_ (by norm_num)
        have := Real.exp_pos (-t)
        have := Real.exp_pos (-32)
        positivity
  have h6 := exp_neg_32
  unfold refined
  norm_num at *
  nlinarith

theorem clipped_tail {γ x : ℝ} (hγ : |γ| ≤ 3) (hx : x ≤ -8) : clipped γ x ≤ 1 / 10 ^ 12 / 2 :=
  (min_le_left _ _).trans (max_le (refined_tail hγ hx) (by norm_num))

/-- The tails which the approximation leaves out are tiny, provided that eight standard deviations on both sides of the mean fit
between 0 and the number of users and the standard deviation is at least 1/3. -/
theorem C69_tails (ps : List ℚ) (h : ∀ p ∈ ps, 0 ≤ p ∧ p ≤ 1) (hs : 1 / 9 ≤ (toMoments ps).var)
    (hl : 8 * Real.sqrt ((toMoments ps).var : ℝ) ≤ ((toMoments ps).exp : ℝ))
    (hr : ((toMoments ps).exp : ℝ) + 8 * Real.sqrt ((toMoments ps).var : ℝ) ≤ ps.length) :
    1 - 1 / 10 ^ 12 ≤ (fromMoments (toMoments ps)).2.sum := by
  have hs3 : 1 / 3 ≤ deviation ps := by
    refine Real.le_sqrt_of_sq_le ?_
    have : ((1 / 9 : ℚ) : ℝ) ≤ ((toMoments ps).var : ℝ) := by exact_mod_cast hs
    norm_num at this ⊢
    exact this
  have hs0 : 0 < deviation ps := by linarith
  have hγ : |skew ps| ≤ 3 := (skew_le ps h hs0).trans (by rw [div_le_iff₀ hs0]; linarith)
  have hl : 8 * deviation ps ≤ ((toMoments ps).exp : ℝ) := hl
  have hr : ((toMoments ps).exp : ℝ) + 8 * deviation ps ≤ ps.length := hr
  have e5 : (0.5 : ℝ) = 1 / 2 := by norm_num
  rw [fromMoments_sum ps h hs0]
  have h1 : valueAt ps (firstCount ps - 1) ≤ 1 / 10 ^ 12 / 2 := by
    refine clipped_tail hγ ?_
    rw [div_le_iff₀ hs0]
    have hf : firstCount ps = ⌊((toMoments ps).exp : ℝ) - 8 * deviation ps⌋ :=
      max_eq_right (Int.floor_nonneg.mpr (by linarith))
    have := Int.floor_le (((toMoments ps).exp : ℝ) - 8 * deviation ps)
    rw [hf, e5]
    push_cast
    linarith
  have h2 : 1 - 1 / 10 ^ 12 / 2 ≤ valueAt ps (lastCount ps) := by
    have h3 : clipped (-skew ps) (-(((lastCount ps : ℝ) + 0.5 - ((toMoments ps).exp : ℝ)) / deviation ps)) ≤ 1 / 10 ^ 12 / 2 := by
      refine clipped_tail (by rwa [abs_neg]) ?_
      rw [neg_le_neg_iff, le_div_iff₀ hs0, e5]
      rcases min_choice (ps.length : ℤ) (roundEven (((toMoments ps).exp : ℝ) + 8 * deviation ps)) with hc | hc
      · have : lastCount ps = ps.length := hc
        rw [this]
        push_cast
        linarith
      · have : lastCount ps = roundEven (((toMoments ps).exp : ℝ) + 8 * deviation ps) := hc
        rw [this]
        have := roundEven_ge (((toMoments ps).exp : ℝ) + 8 * deviation ps)
        linarith
    rw [clipped_neg, neg_neg] at h3
    unfold valueAt
    linarith
  linarith

/-- 400 users kept with probability 1/2 each: mean 200, standard deviation 10. -/
example : 1 - 1 / 10 ^ 12 ≤ (fromMoments (toMoments (List.replicate 400 (1 / 2)))).2.sum := by
  have hv : Real.sqrt (((toMoments (List.replicate 400 (1 / 2))).var : ℚ) : ℝ) = 10 := by
    rw [replicate_moments, Real.sqrt_eq_iff_mul_self_eq_of_pos (by norm_num)]
    norm_num
  refine C69_tails _ (by intro p hp; rw [List.eq_of_mem_replicate hp]; norm_num) ?_ ?_ ?_
  · rw [replicate_moments]; norm_num
  · rw [hv, replicate_moments]; norm_num
  · rw [hv, replicate_moments, List.length_replicate]; norm_num

/-! ### Mass missing at the number of users -/

theorem pdf_three : 1 / 400 ≤ pdf 3 := by
  rw [pdf_eq]
  have h1 : Real.exp 5 ≤ 149 := by
    have := pow_le_pow_left₀ (Real.exp_pos 1).le Real.exp_one_lt_d9.le 5
    rw [← Real.exp_nat_mul] at this
    norm_num at this
    linarith
  have h2 : 1 / 149 ≤ Real.exp (-(3 ^ 2) / 2) := by
    have : Real.exp (-5) ≤ Real.exp (-(3 ^ 2) / 2) := Real.exp_le_exp.mpr (by norm_num)
    refine le_trans ?_ this
    rw [Real.exp_neg, one_div]
    exact inv_anti₀ (Real.exp_pos _) h1
  have h3 : 1 / 2.6 ≤ (Real.sqrt (2 * Real.pi))⁻¹ := by
    rw [one_div]
    exact inv_anti₀ (by have := sqrt_two_pi.1; linarith) sqrt_two_pi.2
  have := mul_le_mul h3 h2 (by norm_num) (by positivity)
  refine le_trans ?_ this
  norm_num

/-- The approximation stops at the number of users but gives the last count only the mass up to half a user above it.  Any number of
users who are kept for sure and one who is kept with probability 1/2: at least 1/400 of the mass is missing, so a partition which is
kept for sure (whatever the count) is predicted to be kept with probability below 1.  The exact distribution sums to 1. -/
theorem C69_mass_missing (m : ℕ) (keep : ℤ → ℝ) (hk : ∀ k, 0 ≤ keep k ∧ keep k ≤ 1) :
    let ps : List ℚ := List.replicate m 1 ++ [1 / 2]
    predictedKeep keep (fromMoments (toMoments ps)) ≤ 1 - 1 / 400 ∧ (computePmf ps).sum = 1 := by
  intro ps
  have hp : ∀ p ∈ ps, 0 ≤ p ∧ p ≤ 1 := by
    intro p hp
    rcases List.mem_append.mp hp with hp | hp
    · rw [List.eq_of_mem_replicate hp]; norm_num
    · rw [List.mem_singleton.mp hp]; norm_num
  refine ⟨?_, (C42_is_distribution ps hp).2⟩
  have hm : toMoments ps = ⟨m + 1, m + 1 / 2, 1 / 4, 0⟩ := by
    simp [ps, toMoments, momentsOf]
    norm_num
  have hd : deviation ps = 1 / 2 := by
    unfold deviation
    rw [hm, Real.sqrt_eq_iff_mul_self_eq_of_pos (by norm_num)]
    norm_num
  have hs : 0 < deviation ps := by rw [hd]; norm_num
  have hlast : lastCount ps = m + 1 := by
    have h1 := roundEven_ge (((toMoments ps).exp : ℝ) + 8 * deviation ps)
    have h2 : ((m + 1 : ℤ) : ℝ) ≤ roundEven (((toMoments ps).exp : ℝ) + 8 * deviation ps) := by
      refine le_trans ?_ h1
      rw [hd, hm]
      push_cast
      linarith
    have h3 : (ps.length : ℤ) = m + 1 := by simp [ps]
    unfold lastCount
    rw [h3]
    exact min_eq_left (by exact_mod_cast h2)
  have hv : valueAt ps (lastCount ps) ≤ 1 - 1 / 400 := by
    have e : valueAt ps (lastCount ps) = clipped 0 2 := by
      unfold valueAt skew
      rw [hlast, hd, hm]
      congr 1
      · simp
      · push_cast
        ring
    have h1 : refined 0 2 = cdf 2 := by unfold refined; ring
    have h2 := cdf_sub_ge (by norm_num : (0 : ℝ) ≤ 2) le_rfl
    have h3 : cdf (2 + 1) ≤ 1 := ProbabilityTheory.cdf_le_one _ _
    have h4 := pdf_three
    norm_num at h2 h3
    rw [e, clipped, h1]
    refine (min_le_left _ _).trans (max_le ?_ (by norm_num))
    linarith
  have h1 := (C69_is_distribution ps hp).2.2.2.1
  have h2 := fromMoments_sum ps hp hs
  have h3 := (valueAt_mem ps (firstCount ps - 1)).1
  have h4 := (foldl_weights keep (fromMoments (toMoments ps)).1 hk (fromMoments (toMoments ps)).2 0 0 h1).2
  unfold predictedKeep
  linarith

end PDP.Analysis.Normal
