import Verif.EndToEnd.Probability
import Verif.EndToEnd.Approx
import Mathlib.Probability.Distributions.Gaussian.Real
import Mathlib.Probability.Moments.Variance
import Mathlib.Probability.Independence.Basic

/-!
# Contracts of PyDP: Gaussian noise and partition selection (for C62)

What is assumed of PyDP, and that the assumptions can be met.
-/

set_option linter.unusedSectionVars false

namespace PDP.EndToEnd

open PDP PDP.Engine PDP.Approx MeasureTheory
open PDP.Engine.Mechanism (Additive laplaceDensity)

/-! ### Specification -/

/-- Distribution of the number `x` with the noise of the mechanism `m`. -/
noncomputable def noisy (m : Additive) (x : ℝ) : Measure ℝ := (noiseLaw m).map fun t => x + t

/-- The standard deviation `sigma e d x` makes independent Gaussian noise on any vector of numbers `(e, d)`-differentially
private, if one privacy unit changes the vector by at most `x` in the Euclidean norm. -/
structure GaussianContract (sigma : ℝ → ℝ → ℝ → ℝ) : Prop where
  pos : ∀ e d x, 0 < e → 0 < d → 0 < x → 0 < sigma e d x
  dp : ∀ e d x, 0 < e → 0 < d → 0 < x → ∀ {ι : Type} [Fintype ι] (a b : ι → ℝ), Real.sqrt (∑ i, (a i - b i) ^ 2) ≤ x →
    Indist e d (Measure.pi fun i => noisy (.gaussian (sigma e d x) x) (a i))
      (Measure.pi fun i => noisy (.gaussian (sigma e d x) x) (b i))

/-- A coin that shows `true` with probability `p`. -/
noncomputable def coin (p : ℝ) : Measure Bool :=
  ENNReal.ofReal p • Measure.dirac true + ENNReal.ofReal (1 - p) • Measure.dirac false

/-- Probability that a partition with `n` privacy ids is released; without ids there is no partition. -/
def orAbsent (prob : ℕ → ℝ) (n : ℕ) : ℝ := if n = 0 then 0 else prob n

/-- The PyDP selector for strategy, epsilon, delta, number `l0` of partitions per privacy id and pre-threshold keeps a partition
with `n ≥ 1` privacy ids with probability `prob strategy e d l0 pre n`.  It is `(e, d)`-differentially private: for any
partitions, if one privacy id is counted (once) in at most `l0` of them, then the sets of kept partitions with and without it
are indistinguishable. -/
structure SelectionContract (prob : Strategy → ℝ → ℝ → ℕ → Option ℕ → ℕ → ℝ) : Prop where
  range : ∀ st e d l0 pre n, 0 ≤ prob st e d l0 pre n ∧ prob st e d l0 pre n ≤ 1
  dp : ∀ st e d l0 pre, 0 < e → 0 < d → 1 ≤ l0 → ∀ {ι : Type} [Fintype ι] (a b : ι → ℕ),
    (∀ i, b i ≤ a i ∧ a i ≤ b i + 1) → Fintype.card {i // a i ≠ b i} ≤ l0 →
    Indist e d (Measure.pi fun i => coin (orAbsent (prob st e d l0 pre) (a i)))
        (Measure.pi fun i => coin (orAbsent (prob st e d l0 pre) (b i))) ∧
      Indist e d (Measure.pi fun i => coin (orAbsent (prob st e d l0 pre) (b i)))
        (Measure.pi fun i => coin (orAbsent (prob st e d l0 pre) (a i)))

/-! ### Distributions -/

theorem coin_prob {p : ℝ} (h0 : 0 ≤ p) (h1 : p ≤ 1) : IsProbabilityMeasure (coin p) := by
  constructor
  simp only [coin, Measure.coe_add, Measure.coe_smul, Pi.add_apply, Pi.smul_apply, measure_univ, smul_eq_mul, mul_one]
  rw [← ENNReal.ofReal_add h0 (by linarith)]
  simp

theorem coin_one : coin 1 = Measure.dirac true := by simp [coin]

theorem coin_zero : coin 0 = Measure.dirac false := by simp [coin]

theorem noisy_laplace {b : ℝ} (x c : ℝ) :
    noisy (.laplace b x) c = volume.withDensity fun t => ENNReal.ofReal (laplaceDensity b (t - c)) := by
  simp only [noisy, noiseLaw, noiseDensity]
  rw [map_add_withDensity _ (laplace_measurable b).ennreal_ofReal]

theorem noisy_laplace_prob {b : ℝ} (hb : 0 < b) (x c : ℝ) : IsProbabilityMeasure (noisy (.laplace b x) c) := by
  constructor
  rw [noisy_laplace, withDensity_apply _ MeasurableSet.univ, Measure.restrict_univ, ← ofReal_integral_eq_lintegral_ofReal
    ((laplace_integrable hb).comp_sub_right _) (Filter.Eventually.of_forall fun t => laplaceDensity_nonneg hb.le _),
    integral_sub_right_eq_self (laplaceDensity b), laplace_integral hb, ENNReal.ofReal_one]

/-- Laplace noise on a vector. -/
theorem laplace_group {ι : Type} [Fintype ι] {e s : ℝ} (he : 0 < e) (hs : 0 < s) (a b : ι → ℝ)
    (h : ∑ i, |a i - b i| ≤ s) (x : ℝ) :
    Indist e 0 (Measure.pi fun i => noisy (.laplace (s / e) x) (a i)) (Measure.pi fun i => noisy (.laplace (s / e) x) (b i)) := by
  have hb : 0 < s / e := div_pos hs he
  have hd : ∀ c : ι → ℝ, (Measure.pi fun i => noisy (.laplace (s / e) x) (c i))
      = volume.withDensity fun t : ι → ℝ => ENNReal.ofReal (∏ i, laplaceDensity (s / e) (t i - c i)) := by
    intro c
    simp only [noisy_laplace]
    exact pi_withDensity (fun i t => laplaceDensity (s / e) (t - c i)) (fun i t => laplaceDensity_nonneg hb.le _)
      (fun i => (laplace_integrable hb).comp_sub_right _)
  rw [hd a, hd b]
  intro A hA
  rw [withDensity_apply _ hA, withDensity_apply _ hA, ← lintegral_const_mul' _ _ ENNReal.ofReal_ne_top]
  simp only [ENNReal.ofReal_zero, add_zero]
  refine lintegral_mono fun t => ?_
  rw [← ENNReal.ofReal_mul (Real.exp_nonneg _)]
  apply ENNReal.ofReal_le_ofReal
  have h1 : ∏ i, laplaceDensity (s / e) (t i - a i)
      ≤ ∏ i, (Real.exp (|a i - b i| / (s / e)) * laplaceDensity (s / e) (t i - b i)) := by
    apply Finset.prod_le_prod
    · intro i _; exact laplaceDensity_nonneg hb.le _
    · intro i _
      unfold laplaceDensity
      rw [← mul_div_assoc (Real.exp _), ← Real.exp_add]
      apply div_le_div_of_nonneg_right _ (by positivity)
      apply Real.exp_le_exp.mpr
      rw [← add_div]
      apply div_le_div_of_nonneg_right _ hb.le
      have := abs_sub_abs_le_abs_sub (t i - b i) (t i - a i)
      have e1 : t i - b i - (t i - a i) = a i - b i := by ring
      rw [e1] at this
      linarith
  refine h1.trans ?_
  rw [Finset.prod_mul_distrib, ← Real.exp_sum]
  apply mul_le_mul_of_nonneg_right
  · apply Real.exp_le_exp.mpr
    rw [← Finset.sum_div, div_le_iff₀ hb, mul_div_cancel₀ _ he.ne']
    exact h
  · exact Finset.prod_nonneg fun i _ => laplaceDensity_nonneg hb.le _

/-! ### Gaussian noise -/

theorem noisy_gaussian {s : ℝ} (hs : 0 < s) (x c : ℝ) :
    noisy (.gaussian s x) c = ProbabilityTheory.gaussianReal c (s ^ 2).toNNReal := by
  have hc : ((s ^ 2).toNNReal : ℝ) = s ^ 2 := Real.coe_toNNReal _ (sq_nonneg s)
  have hv : (s ^ 2).toNNReal ≠ 0 := by
    intro h
    rw [h] at hc
    exact (pow_pos hs 2).ne hc
  have h1 : noiseLaw (.gaussian s x) = ProbabilityTheory.gaussianReal 0 (s ^ 2).toNNReal := by
    rw [ProbabilityTheory.gaussianReal_of_var_ne_zero _ hv]
    unfold noiseLaw ProbabilityTheory.gaussianPDF
    congr 1
    funext t
    congr 1
    simp only [noiseDensity, ProbabilityTheory.gaussianPDFReal, sub_zero]
    rw [hc, Real.sqrt_mul (by positivity) (s ^ 2), Real.sqrt_sq hs.le, div_eq_inv_mul, mul_comm s]
  rw [noisy, h1]
  have := ProbabilityTheory.gaussianReal_map_const_add (μ := 0) (v := (s ^ 2).toNNReal) c
  rw [zero_add] at this
  exact this

theorem noisy_gaussian_prob {s : ℝ} (hs : 0 < s) (x c : ℝ) : IsProbabilityMeasure (noisy (.gaussian s x) c) := by
  rw [noisy_gaussian hs]
  infer_instance

open ProbabilityTheory in
/-- Gaussian noise with enough variance: the probability of a large privacy loss is bounded by its variance. -/
theorem gaussian_indist {ι : Type} [Fintype ι] {e d x : ℝ} (he : 0 < e) (hd : 0 < d) (hx : 0 < x) {v : NNReal}
    (hv1 : x ^ 2 ≤ v * e) (hv2 : 4 * x ^ 2 ≤ d * (v * e ^ 2)) (a b : ι → ℝ) (h : Real.sqrt (∑ i, (a i - b i) ^ 2) ≤ x) :
    Indist e d (Measure.pi fun i => gaussianReal (a i) v) (Measure.pi fun i => gaussianReal (b i) v) := by
  have hvpos : (0 : ℝ) < v := by
    have : 0 < (v : ℝ) * e := lt_of_lt_of_le (pow_pos hx 2) hv1
    exact pos_of_mul_pos_left this he.le
  have hv0 : v ≠ 0 := by
    intro hh; rw [hh] at hvpos; simp at hvpos
  have hsum : ∑ i, (a i - b i) ^ 2 ≤ x ^ 2 := by
    have := Real.sqrt_le_left hx.le |>.mp h
    exact this
  set t : ℝ := v * e - x ^ 2 / 2 with ht
  have htpos : v * e / 2 ≤ t := by rw [ht]; linarith
  have ht0 : 0 < t := lt_of_lt_of_le (by positivity) htpos
  have hdens : ∀ c : ι → ℝ, (Measure.pi fun i => gaussianReal (c i) v)
      = volume.withDensity fun o : ι → ℝ => ENNReal.ofReal (∏ i, gaussianPDFReal (c i) v (o i)) := by
    intro c
    simp only [gaussianReal_of_var_ne_zero _ hv0]
    exact pi_withDensity (fun i => gaussianPDFReal (c i) v) (fun i o => gaussianPDFReal_nonneg _ _ _)
      (fun i => integrable_gaussianPDFReal _ _)
  set L : (ι → ℝ) → ℝ := fun o => ∑ i, (a i - b i) * (o i - a i) with hL
  have hLm : Measurable L := by
    rw [hL]
    fun_prop
  have htail : (Measure.pi fun i => gaussianReal (a i) v) {o | t ≤ |L o|} ≤ ENNReal.ofReal d := by
    have hmem : ∀ i, MemLp (fun y : ℝ => (a i - b i) * (y - a i)) 2 (gaussianReal (a i) v) := by
      intro i
      have h1 : MemLp (fun y : ℝ => y) 2 (gaussianReal (a i) v) := memLp_id_gaussianReal' 2 (by simp)
      exact (h1.sub (memLp_const _)).const_mul _
    have hint : ∀ i, ∫ y, (a i - b i) * (y - a i) ∂(gaussianReal (a i) v) = 0 := by
      intro i
      rw [integral_const_mul, integral_sub, integral_id_gaussianReal]
      · simp
      · exact (memLp_id_gaussianReal' (μ := a i) (v := v) 1 (by simp)).integrable (le_refl _)
      · exact integrable_const _
    have hvar : ∀ i, variance (fun y : ℝ => (a i - b i) * (y - a i)) (gaussianReal (a i) v) = (a i - b i) ^ 2 * v := by
      intro i
      rw [variance_const_mul, variance_sub_const, variance_fun_id_gaussianReal]
      exact measurable_id.aestronglyMeasurable
    have hmemL : MemLp L 2 (Measure.pi fun i => gaussianReal (a i) v) := by
      rw [hL]
      refine memLp_finsetSum _ fun i _ => ?_
      exact (hmem i).comp_measurePreserving (measurePreserving_eval (fun i => gaussianReal (a i) v) i)
    have hmean : ∫ o, L o ∂(Measure.pi fun i => gaussianReal (a i) v) = 0 := by
      rw [hL, integral_finsetSum]
      · refine Finset.sum_eq_zero fun i _ => ?_
        rw [← hint i]
        have hmp := measurePreserving_eval (fun i => gaussianReal (a i) v) i
        conv_rhs => rw [← hmp.map_eq]
        rw [integral_map hmp.measurable.aemeasurable]
        rw [hmp.map_eq]
        exact (hmem i).aestronglyMeasurable
      · intro i _
        exact ((hmem i).comp_measurePreserving (measurePreserving_eval (fun i => gaussianReal (a i) v) i)).integrable (by norm_num)
    have hvarL : variance L (Measure.pi fun i => gaussianReal (a i) v) = (∑ i, (a i - b i) ^ 2) * v := by
      have := variance_sum_pi (μ := fun i => gaussianReal (a i) v) (X := fun i (y : ℝ) => (a i - b i) * (y - a i)) hmem
      rw [Finset.sum_mul, ← Finset.sum_congr rfl fun i _ => hvar i, ← this]
      congr 1
      funext o
      simp [hL]
    have := meas_ge_le_variance_div_sq hmemL ht0
    rw [hmean, hvarL] at this
    simp only [sub_zero] at this
    refine this.trans (ENNReal.ofReal_le_ofReal ?_)
    rw [div_le_iff₀ (by positivity)]
    have h1 : (v * e / 2) ^ 2 ≤ t ^ 2 := pow_le_pow_left₀ (by positivity) htpos 2
    calc (∑ i, (a i - b i) ^ 2) * v ≤ x ^ 2 * v := by gcongr
      _ ≤ d * (v * e / 2) ^ 2 := by nlinarith
      _ ≤ d * t ^ 2 := by gcongr
  intro A hA
  set T : Set (ι → ℝ) := {o | t ≤ |L o|} with hT
  have hTm : MeasurableSet T := measurableSet_le measurable_const hLm.abs
  have hsplit : (Measure.pi fun i => gaussianReal (a i) v) A
      ≤ (Measure.pi fun i => gaussianReal (a i) v) (A \ T) + (Measure.pi fun i => gaussianReal (a i) v) T := by
    refine (measure_mono ?_).trans (measure_union_le _ _)
    intro o ho
    by_cases h : o ∈ T
    · exact Or.inr h
    · exact Or.inl ⟨ho, h⟩
  refine hsplit.trans (add_le_add ?_ htail)
  refine le_trans ?_ (mul_le_mul_right (measure_mono (Set.sdiff_subset : A \ T ⊆ A)) _)
  rw [hdens a, hdens b, withDensity_apply _ (hA.diff hTm), withDensity_apply _ (hA.diff hTm),
    ← lintegral_const_mul' _ _ ENNReal.ofReal_ne_top]
  refine setLIntegral_mono' (hA.diff hTm) ?_
  rintro o ⟨-, ho⟩
  rw [← ENNReal.ofReal_mul (Real.exp_nonneg _)]
  apply ENNReal.ofReal_le_ofReal
  have hone : ∀ i, gaussianPDFReal (a i) v (o i)
      = Real.exp (((o i - b i) ^ 2 - (o i - a i) ^ 2) / (2 * v)) * gaussianPDFReal (b i) v (o i) := by
    intro i
    simp only [gaussianPDFReal]
    rw [mul_left_comm, ← Real.exp_add]
    congr 2
    ring
  rw [Finset.prod_congr rfl fun i _ => hone i, Finset.prod_mul_distrib, ← Real.exp_sum]
  apply mul_le_mul_of_nonneg_right _ (Finset.prod_nonneg fun i _ => gaussianPDFReal_nonneg _ _ _)
  apply Real.exp_le_exp.mpr
  rw [← Finset.sum_div, div_le_iff₀ (by positivity)]
  have hexp : ∑ i, ((o i - b i) ^ 2 - (o i - a i) ^ 2) = 2 * L o + ∑ i, (a i - b i) ^ 2 := by
    rw [hL, Finset.mul_sum, ← Finset.sum_add_distrib]
    refine Finset.sum_congr rfl fun i _ => ?_
    ring
  have hlt : L o < t := by
    have : ¬ t ≤ |L o| := ho
    exact lt_of_le_of_lt (le_abs_self _) (not_le.mp this)
  rw [hexp]
  have : 2 * t = 2 * (v * e) - x ^ 2 := by rw [ht]; ring
  nlinarith

/-- **C62** (the Gaussian contract can be met).  A closed form that meets it. -/
theorem gaussianContract_example : GaussianContract fun e d x => x * Real.sqrt (1 / e + 4 / (e ^ 2 * d)) := by
  have hpos : ∀ e d x : ℝ, 0 < e → 0 < d → 0 < x → 0 < x * Real.sqrt (1 / e + 4 / (e ^ 2 * d)) := by
    intro e d x he hd hx
    apply mul_pos hx
    apply Real.sqrt_pos.mpr
    positivity
  refine ⟨hpos, ?_⟩
  intro e d x he hd hx ι _ a b h
  have hs := hpos e d x he hd hx
  simp only [noisy_gaussian hs]
  have hv : (x * Real.sqrt (1 / e + 4 / (e ^ 2 * d))) ^ 2 = x ^ 2 * (1 / e + 4 / (e ^ 2 * d)) := by
    rw [mul_pow, Real.sq_sqrt (by positivity)]
  refine gaussian_indist he hd hx ?_ ?_ a b h
  · rw [Real.coe_toNNReal _ (sq_nonneg _), hv]
    have : x ^ 2 * (1 / e + 4 / (e ^ 2 * d)) * e = x ^ 2 + 4 * x ^ 2 / (e * d) := by field_simp
    rw [this]
    have : 0 ≤ 4 * x ^ 2 / (e * d) := by positivity
    linarith
  · rw [Real.coe_toNNReal _ (sq_nonneg _), hv]
    have : d * (x ^ 2 * (1 / e + 4 / (e ^ 2 * d)) * e ^ 2) = d * x ^ 2 * e + 4 * x ^ 2 := by field_simp
    rw [this]
    have : 0 ≤ d * x ^ 2 * e := by positivity
    linarith

/-! ### Partition selection -/

theorem coin_apply (p : ℝ) (A : Set Bool) : coin p A
    = ENNReal.ofReal p * A.indicator 1 true + ENNReal.ofReal (1 - p) * A.indicator 1 false := by
  simp [coin]

theorem coin_indist {e d p q : ℝ} (he : 0 ≤ e) (hd : 0 ≤ d) (hp : 0 ≤ p) (hp1 : p ≤ 1) (hq : 0 ≤ q) (hq1 : q ≤ 1)
    (h1 : p ≤ Real.exp e * q + d) (h2 : 1 - p ≤ Real.exp e * (1 - q) + d) : Indist e d (coin p) (coin q) := by
  have hE : 1 ≤ Real.exp e := Real.one_le_exp he
  intro A _
  rw [coin_apply, coin_apply]
  by_cases ht : true ∈ A <;> by_cases hf : false ∈ A <;>
    simp only [Set.indicator_of_mem, Set.indicator_of_notMem, ht, hf, not_false_eq_true, Pi.one_apply, mul_one, mul_zero,
      add_zero, zero_add]
  · rw [← ENNReal.ofReal_add hp (by linarith), ← ENNReal.ofReal_add hq (by linarith), ← ENNReal.ofReal_mul (by linarith),
      ← ENNReal.ofReal_add (mul_nonneg (by linarith) (by linarith)) hd]
    apply ENNReal.ofReal_le_ofReal
    have : p + (1 - p) = 1 := by ring
    have : q + (1 - q) = 1 := by ring
    nlinarith
  · rw [← ENNReal.ofReal_mul (by linarith), ← ENNReal.ofReal_add (mul_nonneg (by linarith) hq) hd]
    exact ENNReal.ofReal_le_ofReal h1
  · rw [← ENNReal.ofReal_mul (by linarith), ← ENNReal.ofReal_add (mul_nonneg (by linarith) (by linarith)) hd]
    exact ENNReal.ofReal_le_ofReal h2
  · exact zero_le

/-- Partition selection with one user more or less in at most `l0` partitions, from conditions on a single partition. -/
theorem selection_of_partitionwise {e d : ℝ} {l0 : ℕ} (he : 0 ≤ e) (hd : 0 ≤ d) (hl : 1 ≤ l0) (p : ℕ → ℝ)
    (hp : ∀ n, 0 ≤ p n ∧ p n ≤ 1)
    (h : ∀ m n, (m = n + 1 ∨ n = m + 1) → p m ≤ Real.exp (e / l0) * p n + d / l0 ∧
      1 - p m ≤ Real.exp (e / l0) * (1 - p n) + d / l0) {ι : Type} [Fintype ι] (a b : ι → ℕ)
    (hab : ∀ i, a i = b i ∨ a i = b i + 1 ∨ b i = a i + 1) (hcard : Fintype.card {i // a i ≠ b i} ≤ l0) :
    Indist e d (Measure.pi fun i => coin (p (a i))) (Measure.pi fun i => coin (p (b i))) := by
  classical
  have hl' : (0 : ℝ) < l0 := by exact_mod_cast hl
  have : ∀ n, IsProbabilityMeasure (coin (p n)) := fun n => coin_prob (hp n).1 (hp n).2
  set gs : List ι := (Finset.univ.filter fun i => a i ≠ b i).toList with hgs
  have hlen : gs.length ≤ l0 := by
    rw [hgs, Finset.length_toList, ← Fintype.card_subtype]
    exact hcard
  have key := Indist.groups gs (Finset.nodup_toList _) (fun _ => e / l0) (fun _ => d / l0)
    (fun _ _ => by positivity) (fun i : ι => i) (fun i => coin (p (a i))) (fun i => coin (p (b i))) ?_ ?_
  · refine key.mono ?_ ?_
    · rw [List.map_const', List.sum_replicate, nsmul_eq_mul, mul_div_assoc', div_le_iff₀ hl', mul_comm]
      exact mul_le_mul_of_nonneg_left (by exact_mod_cast hlen) he
    · rw [List.map_const', List.sum_replicate, nsmul_eq_mul, mul_div_assoc', div_le_iff₀ hl', mul_comm]
      exact mul_le_mul_of_nonneg_left (by exact_mod_cast hlen) hd
  · intro i hi
    rw [hgs, Finset.mem_toList, Finset.mem_filter] at hi
    have : a i = b i := by
      by_contra hne
      exact hi ⟨Finset.mem_univ _, hne⟩
    rw [this]
  · intro i hi
    rw [hgs, Finset.mem_toList, Finset.mem_filter] at hi
    have hc : Indist (e / l0) (d / l0) (coin (p (a i))) (coin (p (b i))) := by
      have hx : a i = b i + 1 ∨ b i = a i + 1 := (hab i).resolve_left hi.2
      exact coin_indist (by positivity) (by positivity) (hp _).1 (hp _).2 (hp _).1 (hp _).2 (h _ _ hx).1 (h _ _ hx).2
    let f : Unit ≃ {j : ι // j = i} := ⟨fun _ => ⟨i, rfl⟩, fun _ => (), fun _ => rfl, fun j => Subtype.ext j.2.symm⟩
    convert Indist.reindex f (μ := fun j : {j : ι // j = i} => coin (p (a j))) (ν := fun j : {j : ι // j = i} => coin (p (b j))) ?_ using 2
    have e1 : ∀ q : ℝ, IsProbabilityMeasure (coin q) → (Measure.pi fun _ : Unit => coin q)
        = (coin q).map (MeasurableEquiv.funUnique Unit Bool).symm := by
      intro q hq
      exact ((measurePreserving_funUnique (coin q) Unit).symm _).map_eq.symm
    show Indist _ _ (Measure.pi fun _ : Unit => coin (p (a i))) (Measure.pi fun _ : Unit => coin (p (b i)))
    rw [e1 _ (this _), e1 _ (this _)]
    exact hc.map (MeasurableEquiv.funUnique Unit Bool).symm.measurable

/-- The selection contract can be met: by a probability which grows by `d / l0` with every privacy id. -/
theorem selectionContract_example :
    SelectionContract fun _ _ d l0 _ n => max 0 (min 1 (n * (d / l0))) := by
  refine ⟨fun st e d l0 pre n => ⟨le_max_left _ _, max_le (by norm_num) (min_le_left _ _)⟩, ?_⟩
  intro st e d l0 pre he hd hl ι _ a b hab hcard
  have hl' : (0 : ℝ) < l0 := by exact_mod_cast hl
  set p : ℕ → ℝ := orAbsent fun n : ℕ => max 0 (min 1 ((n : ℝ) * (d / l0))) with hpdef
  have hp : ∀ n, p n = min 1 ((n : ℝ) * (d / l0)) := by
    intro n
    rw [hpdef, orAbsent]
    split
    · rename_i h
      subst h
      simp
    · exact max_eq_right (le_min (by norm_num) (by positivity))
  have hr : ∀ n, 0 ≤ p n ∧ p n ≤ 1 := by
    intro n
    rw [hp]
    exact ⟨le_min (by norm_num) (by positivity), min_le_left _ _⟩
  have hE : 1 ≤ Real.exp (e / l0) := Real.one_le_exp (by positivity)
  have hdl : 0 < d / l0 := by positivity
  have hstep : ∀ n, p n ≤ p (n + 1) ∧ p (n + 1) ≤ p n + d / l0 := by
    intro n
    rw [hp, hp]
    push_cast
    constructor
    · exact min_le_min_left _ (by nlinarith)
    · rw [min_add]
      exact min_le_min (by linarith) (by linarith)
  have hpair : ∀ m n, (m = n + 1 ∨ n = m + 1) → p m ≤ Real.exp (e / l0) * p n + d / l0 ∧
      1 - p m ≤ Real.exp (e / l0) * (1 - p n) + d / l0 := by
    intro m n hmn
    have h1 := (hr n).1
    have h2 := (hr n).2
    have h3 : |p m - p n| ≤ d / l0 := by
      rcases hmn with rfl | rfl
      · rw [abs_le]; have := hstep n; constructor <;> linarith [this.1, this.2]
      · rw [abs_le]; have := hstep m; constructor <;> linarith [this.1, this.2]
    rw [abs_le] at h3
    constructor
    · nlinarith [h3.1, h3.2]
    · nlinarith [h3.1, h3.2]
  refine ⟨selection_of_partitionwise he.le hd.le hl p hr hpair a b (fun i => ?_) hcard,
    selection_of_partitionwise he.le hd.le hl p hr hpair b a (fun i => ?_) ?_⟩
  · have := hab i; omega
  · have := hab i; omega
  · simpa [ne_comm] using hcard

end PDP.EndToEnd
