import Verif.EndToEnd.Explained
import Verif.EndToEnd.LossProps
import Verif.Engine.MeanVariance
import Mathlib.Probability.Moments.SubGaussian
import Mathlib.MeasureTheory.Measure.Prod

/-!
# How far released results are from the exact ones (C91)

C63 says which exact number is released with which noise.  Here follows what a user reads from it: results are right on
average, and how likely an error of a given size is.
-/

set_option linter.unusedSectionVars false

namespace PDP.EndToEnd

open PDP PDP.Engine MeasureTheory
open PDP.Engine.Mechanism (Additive laplaceDensity)
open PDP.Engine.AddNoise (specOf)
open PDP.Budget (State Op MechType)

variable {R P K : Type} [DecidableEq P] [DecidableEq K]

/-! ### Specification -/

/-- A released number with distribution `law` is `exact` on average, and its error is `t` or more with probability
`exp (-t / b)`. -/
structure LaplaceAround (law : Measure ℝ) (exact b : ℝ) : Prop where
  prob : IsProbabilityMeasure law
  integrable : Integrable (fun v => v) law
  mean : ∫ v, v ∂law = exact
  error : ∀ t, 0 ≤ t → law {v | t ≤ |v - exact|} = ENNReal.ofReal (Real.exp (-t / b))

/-- A released number with distribution `law` is `exact` on average, has variance `σ²`, and its error is `t` or more with
probability at most `2 exp (-t² / (2 σ²))`. -/
structure GaussianAround (law : Measure ℝ) (exact σ : ℝ) : Prop where
  prob : IsProbabilityMeasure law
  integrable : Integrable (fun v => v) law
  mean : ∫ v, v ∂law = exact
  variance : ∫ v, (v - exact) ^ 2 ∂law = σ ^ 2
  error : ∀ t, 0 ≤ t → law {v | t ≤ |v - exact|} ≤ ENNReal.ofReal (2 * Real.exp (-t ^ 2 / (2 * σ ^ 2)))

/-- The number `d` is released accurately: with Laplace noise the size of errors is given by the L1 change by one privacy id
divided by epsilon (the part of it that this number gets). -/
def Documented.Accurate (sigma : ℝ → ℝ → ℝ → ℝ) (kind : NoiseKind) (ε δ : ℕ → ℝ) (d : Documented) (law : Measure ℝ) : Prop :=
  match kind with
  | .laplace => LaplaceAround law d.value (d.l1 * d.uses / ε d.spec)
  | .gaussian => GaussianAround law d.value (sigma (ε d.spec / d.uses) (δ d.spec / d.uses) d.l2)

/-- The documented numbers of partition `k`. -/
noncomputable def Call.documented (b : Built) (pid : R → P) (data : List R) (k : K) : Call R K → List Documented
  | .aggregate p pub key value => b.parts.flatMap (EndToEnd.documented p (relevant pub (extract pid key value data)) k)
  | .select _ _ => []

/-- The mean computed from a noisy count and a noisy sum of the distances of the values to the middle of their range. -/
noncomputable def meanFrom (lo hi : ℚ) (noisy : ℝ × ℝ) : ℝ := (lo + hi) / 2 + noisy.2 / max 1 noisy.1

/-- Average of a list of numbers. -/
def averageOf (l : List ℚ) : ℚ := l.sum / l.length

/-- Population variance of a list of numbers. -/
def varianceOf (l : List ℚ) : ℚ := averageOf (l.map fun v => (v - averageOf l) ^ 2)

/-- The variance computed from a noisy count, a noisy sum of distances to the middle of the range, and a noisy sum of the squares of
these distances. -/
noncomputable def varianceFrom (noisy : ℝ × ℝ × ℝ) : ℝ := noisy.2.2 / max 1 noisy.1 - (noisy.2.1 / max 1 noisy.1) ^ 2

/-! ### Laplace noise -/

theorem laplace_symm {b : ℝ} (x c : ℝ) : (noisy (.laplace b x) c).map (fun v => 2 * c - v) = noisy (.laplace b x) c := by
  have hm : Measurable fun v : ℝ => 2 * c - v := by fun_prop
  ext s hs
  rw [Measure.map_apply hm hs, noisy_laplace, withDensity_apply _ (hm hs), withDensity_apply _ hs]
  have h := (Measure.measurePreserving_sub_left volume (2 * c)).setLIntegral_comp_preimage hs
    (f := fun v => ENNReal.ofReal (laplaceDensity b (v - c)))
    ((laplace_measurable b).comp (measurable_sub_const c)).ennreal_ofReal
  rw [← h]
  refine setLIntegral_congr_fun (hm hs) fun v _ => ?_
  simp only [laplaceDensity]
  rw [show 2 * c - v - c = -(v - c) by ring, abs_neg]

theorem laplace_first_moment {b : ℝ} (hb : 0 < b) : Integrable fun t => t * laplaceDensity b t := by
  refine Integrable.mono (g := fun t => 4 * b * laplaceDensity (2 * b) t)
    ((laplace_integrable (b := 2 * b) (by positivity)).const_mul _)
    (measurable_id.mul (laplace_measurable b)).aestronglyMeasurable (Filter.Eventually.of_forall fun t => ?_)
  have h1 : |t| / (2 * b) ≤ Real.exp (|t| / (2 * b)) := le_trans (by linarith) (Real.add_one_le_exp _)
  have h2 : Real.exp (-|t| / b) = Real.exp (-|t| / (2 * b)) * Real.exp (-|t| / (2 * b)) := by
    rw [← Real.exp_add]; congr 1; field_simp; ring
  have h3 : Real.exp (|t| / (2 * b)) * Real.exp (-|t| / (2 * b)) = 1 := by
    rw [← Real.exp_add]; simp [neg_div]
  have hpos := Real.exp_pos (-|t| / (2 * b))
  rw [Real.norm_eq_abs, Real.norm_eq_abs, abs_mul, abs_of_nonneg (laplaceDensity_nonneg hb.le _), abs_of_nonneg
    (mul_nonneg (by positivity) (laplaceDensity_nonneg (by positivity) _))]
  simp only [laplaceDensity]
  rw [h2]
  have h4 : |t| / (2 * b) * Real.exp (-|t| / (2 * b)) ≤ 1 := by
    rw [← h3]; exact mul_le_mul_of_nonneg_right h1 hpos.le
  have h5 : |t| * (Real.exp (-|t| / (2 * b)) * Real.exp (-|t| / (2 * b)) / (2 * b))
      = |t| / (2 * b) * Real.exp (-|t| / (2 * b)) * Real.exp (-|t| / (2 * b)) := by ring
  have h6 : 4 * b * (Real.exp (-|t| / (2 * b)) / (2 * (2 * b))) = 1 * Real.exp (-|t| / (2 * b)) := by field_simp; ring
  rw [h5, h6]
  exact mul_le_mul_of_nonneg_right h4 hpos.le

theorem laplace_noise_integrable {b : ℝ} (hb : 0 < b) (x c : ℝ) : Integrable (fun v => v) (noisy (.laplace b x) c) := by
  rw [noisy_laplace]
  have hm : Measurable fun t => laplaceDensity b (t - c) := (laplace_measurable b).comp (measurable_sub_const c)
  have key : Integrable fun v => v * laplaceDensity b (v - c) := by
    have h1 := (laplace_first_moment hb).comp_sub_right c
    have h2 := ((laplace_integrable hb).comp_sub_right c).const_mul c
    refine (h1.add h2).congr (Filter.Eventually.of_forall fun v => ?_)
    simp only [Pi.add_apply]
    ring
  rw [integrable_withDensity_iff hm.ennreal_ofReal (Filter.Eventually.of_forall fun _ => ENNReal.ofReal_lt_top)]
  refine key.congr (Filter.Eventually.of_forall fun v => ?_)
  simp only [ENNReal.toReal_ofReal (laplaceDensity_nonneg hb.le _)]

/-- Laplace noise of scale `b`. -/
theorem laplace_around {b : ℝ} (hb : 0 < b) (x c : ℝ) : LaplaceAround (noisy (.laplace b x) c) c b := by
  have hp := noisy_laplace_prob hb x c
  have hi := laplace_noise_integrable hb x c
  refine ⟨hp, hi, ?_, fun t ht => ?_⟩
  · have h1 : ∫ v, v ∂(noisy (.laplace b x) c) = ∫ v, (2 * c - v) ∂(noisy (.laplace b x) c) := by
      conv_lhs => rw [← laplace_symm (b := b) x c]
      rw [integral_map (by fun_prop) (by fun_prop)]
    rw [integral_sub (integrable_const _) hi] at h1
    simp only [integral_const, probReal_univ, smul_eq_mul, one_mul] at h1
    linarith
  · rcases ht.eq_or_lt with rfl | ht'
    · have : {v : ℝ | 0 ≤ |v - c|} = Set.univ := by ext v; simp
      rw [this, measure_univ]
      simp
    · have hset : {v : ℝ | t ≤ |v - c|} = {v | c + t ≤ v} ∪ {v | v ≤ c - t} := by
        ext v
        simp only [Set.mem_ofPred_eq, Set.mem_union, le_abs]
        constructor
        · rintro (h | h)
          · left; linarith
          · right; linarith
        · rintro (h | h)
          · left; linarith
          · right; linarith
      have hdis : Disjoint {v : ℝ | c + t ≤ v} {v | v ≤ c - t} := by
        rw [Set.disjoint_left]
        intro v h1 h2
        simp only [Set.mem_ofPred_eq] at h1 h2
        linarith
      rw [hset, measure_union hdis (s₂ := {v | v ≤ c - t}) measurableSet_Iic, laplace_tail hb ht, laplace_lower_tail hb ht,
        ← ENNReal.ofReal_add (by positivity) (by positivity)]
      congr 1; ring

/-! ### Gaussian noise -/

theorem gaussian_around {σ : ℝ} (hσ : 0 < σ) (x c : ℝ) : GaussianAround (noisy (.gaussian σ x) c) c σ := by
  have hv : ((σ ^ 2).toNNReal : ℝ) = σ ^ 2 := Real.coe_toNNReal _ (sq_nonneg σ)
  rw [noisy_gaussian hσ]
  have hmean : ∫ v, v ∂(ProbabilityTheory.gaussianReal c (σ ^ 2).toNNReal) = c := ProbabilityTheory.integral_id_gaussianReal
  have hsub : ∀ (m : ℝ), ProbabilityTheory.HasSubgaussianMGF (fun v => m * (v - c)) (‖m‖₊ ^ 2 * (σ ^ 2).toNNReal)
      (ProbabilityTheory.gaussianReal c (σ ^ 2).toNNReal) := by
    intro m
    have hmap : (ProbabilityTheory.gaussianReal c (σ ^ 2).toNNReal).map (fun v => v - c)
        = ProbabilityTheory.gaussianReal 0 (σ ^ 2).toNNReal := by
      rw [ProbabilityTheory.gaussianReal_map_sub_const, sub_self]
    have hid : ∀ t, ProbabilityTheory.mgf (fun v => v - c) (ProbabilityTheory.gaussianReal c (σ ^ 2).toNNReal) t
        = Real.exp (0 * t + (σ ^ 2).toNNReal * t ^ 2 / 2) := fun t => ProbabilityTheory.mgf_gaussianReal hmap t
    have hint : ∀ t, Integrable (fun v => Real.exp (t * (v - c))) (ProbabilityTheory.gaussianReal c (σ ^ 2).toNNReal) := by
      intro t
      have := (ProbabilityTheory.integrable_exp_mul_gaussianReal (μ := c) (v := (σ ^ 2).toNNReal) t).mul_const (Real.exp (-(t * c)))
      refine this.congr (Filter.Eventually.of_forall fun v => ?_)
      simp only [← Real.exp_add]
      congr 1; ring
    constructor
    · intro t
      refine (hint (t * m)).congr (Filter.Eventually.of_forall fun v => ?_)
      simp only
      congr 1; ring
    · intro t
      have h1 : ProbabilityTheory.mgf (fun v => m * (v - c)) (ProbabilityTheory.gaussianReal c (σ ^ 2).toNNReal) t
          = ProbabilityTheory.mgf (fun v => v - c) (ProbabilityTheory.gaussianReal c (σ ^ 2).toNNReal) (m * t) := by
        simp only [ProbabilityTheory.mgf]
        congr 1; funext v; congr 1; ring
      rw [h1, hid]
      apply le_of_eq
      congr 1
      push_cast
      rw [Real.norm_eq_abs, sq_abs]
      ring
  refine ⟨inferInstance, ?_, hmean, ?_, fun t ht => ?_⟩
  · exact (ProbabilityTheory.memLp_id_gaussianReal 1).integrable le_rfl
  · have h := ProbabilityTheory.variance_id_gaussianReal (μ := c) (v := (σ ^ 2).toNNReal)
    rw [ProbabilityTheory.variance_eq_integral aemeasurable_id] at h
    simp only [id_eq] at h
    rw [hmean, hv] at h
    exact h
  · have hup := (hsub 1).measure_ge_le ht
    have hdn := (hsub (-1)).measure_ge_le ht
    have e1 : ((‖(1 : ℝ)‖₊ ^ 2 * (σ ^ 2).toNNReal : NNReal) : ℝ) = σ ^ 2 := by push_cast; rw [hv]; simp
    have e2 : ((‖(-1 : ℝ)‖₊ ^ 2 * (σ ^ 2).toNNReal : NNReal) : ℝ) = σ ^ 2 := by push_cast; rw [hv]; simp
    rw [e1] at hup
    rw [e2] at hdn
    have hset : {v : ℝ | t ≤ |v - c|} = {v | t ≤ 1 * (v - c)} ∪ {v | t ≤ -1 * (v - c)} := by
      ext v
      simp [le_abs]
    rw [hset, two_mul, ENNReal.ofReal_add (by positivity) (by positivity)]
    refine (measure_union_le _ _).trans (add_le_add ?_ ?_)
    · rw [← ENNReal.ofReal_toReal (measure_ne_top _ {v : ℝ | t ≤ 1 * (v - c)})]
      exact ENNReal.ofReal_le_ofReal hup
    · rw [← ENNReal.ofReal_toReal (measure_ne_top _ {v : ℝ | t ≤ -1 * (v - c)})]
      exact ENNReal.ofReal_le_ofReal hdn

/-! ### Documented numbers -/

theorem rowChange_pos {p : Params} (hp : p.BoundsValid) {a : ℚ} (ha : 0 < a) : 0 < (rowChange p a).1 ∧ 0 < (rowChange p a).2 := by
  rcases hp with ⟨m, hm, q1, q2, q3⟩ | ⟨l0, linf, hl0, hl, q1, q2, q3⟩
  · have hm' : (0 : ℚ) < m := by exact_mod_cast hm
    have : (0 : ℝ) < ((a * m : ℚ) : ℝ) := by exact_mod_cast mul_pos ha hm'
    simp only [rowChange, q1]
    exact ⟨this, this⟩
  · have h0 : (0 : ℝ) < l0 := by exact_mod_cast hl0
    have h1 : (0 : ℚ) < linf := by exact_mod_cast hl
    have : (0 : ℝ) < ((a * linf : ℚ) : ℝ) := by exact_mod_cast mul_pos ha h1
    simp only [rowChange, q1, q2, q3, Option.getD_some]
    exact ⟨mul_pos h0 this, mul_pos (Real.sqrt_pos.mpr h0) this⟩

theorem idChange_pos {p : Params} (hp : p.BoundsValid) {a : ℚ} (ha : 0 < a) : 0 < (idChange p a).1 ∧ 0 < (idChange p a).2 := by
  have ha' : (0 : ℝ) < a := by exact_mod_cast ha
  rcases hp with ⟨m, hm, q1, q2, q3⟩ | ⟨l0, linf, hl0, hl, q1, q2, q3⟩
  · have hm' : (0 : ℝ) < m := by exact_mod_cast hm
    simp only [idChange, q1]
    exact ⟨mul_pos hm' ha', mul_pos (Real.sqrt_pos.mpr hm') ha'⟩
  · have h0 : (0 : ℝ) < l0 := by exact_mod_cast hl0
    simp only [idChange, q1, q2, Option.getD_some]
    exact ⟨mul_pos h0 ha', mul_pos (Real.sqrt_pos.mpr h0) ha'⟩

theorem documented_pos {p : Params} (hp : p.BoundsValid) {part : Part} (hok : PartOkAny p part) (rows : List (P × K × ℚ)) (k : K)
    (d : Documented) (hd : d ∈ documented p rows k part) :
    0 < d.l1 ∧ 0 < d.l2 ∧ 0 < d.uses ∧ d.spec ∈ part.specs ∧ ∀ kind, part.mechanism kind = kind.mechanism := by
  rcases hok with hok | ⟨i, rfl⟩ | ⟨i, ps, rfl⟩
  · cases part with
    | count i =>
      simp only [documented, List.mem_singleton] at hd
      subst hd
      obtain ⟨h1, h2⟩ := rowChange_pos hp one_pos
      exact ⟨h1, h2, by simp, by simp [Part.specs], fun _ => rfl⟩
    | privacyIdCount i =>
      simp only [documented, List.mem_singleton] at hd
      subst hd
      obtain ⟨h1, h2⟩ := idChange_pos hp one_pos
      exact ⟨h1, h2, by simp, by simp [Part.specs], fun _ => rfl⟩
    | sum i =>
      rcases (hok : SumOk p) with ⟨lo, hi, q1, q2, -, q4, q5⟩ | ⟨lo, hi, q1, q2, -, q4, -⟩
      · have h := rowChange_pos hp (max_abs_pos q4)
        have hd' : d.l1 = (rowChange p (max |lo| |hi|)).1 ∧ d.l2 = (rowChange p (max |lo| |hi|)).2 ∧ d.uses = 1 ∧ d.spec = i := by
          rcases h3 : p.minSum with _ | a <;> rcases h4 : p.maxSum with _ | b <;>
            simp [documented, h3, h4, q1, q2, Params.sumBoundsSet] at hd q5 ⊢ <;> subst hd <;> simp
        rw [hd'.1, hd'.2.1, hd'.2.2.1, hd'.2.2.2]
        exact ⟨h.1, h.2, by simp, by simp [Part.specs], fun _ => rfl⟩
      · have h := idChange_pos hp (max_abs_pos q4)
        simp only [documented, q1, q2, List.mem_singleton] at hd
        subst hd
        exact ⟨h.1, h.2, by simp, by simp [Part.specs], fun _ => rfl⟩
    | mean c s names =>
      obtain ⟨lo, hi, q1, q2, q3⟩ := (hok : MeanOk p)
      simp only [documented, q1, q2, Option.getD_some, List.mem_cons, List.not_mem_nil, or_false] at hd
      rcases hd with rfl | rfl
      · obtain ⟨h1, h2⟩ := rowChange_pos hp one_pos
        exact ⟨h1, h2, by simp, by simp [Part.specs], fun _ => rfl⟩
      · obtain ⟨h1, h2⟩ := rowChange_pos hp (a := (hi - lo) / 2) (by linarith)
        exact ⟨h1, h2, by simp, by simp [Part.specs], fun _ => rfl⟩
    | variance s names =>
      obtain ⟨⟨lo, hi, q1, q2, q3, -⟩, -⟩ := (hok : VarianceOk p)
      simp only [documented, q1, q2, Option.getD_some, List.mem_cons, List.not_mem_nil, or_false] at hd
      rcases hd with rfl | rfl | rfl
      · obtain ⟨h1, h2⟩ := rowChange_pos hp one_pos
        exact ⟨h1, h2, by simp, by simp [Part.specs], fun _ => rfl⟩
      · obtain ⟨h1, h2⟩ := rowChange_pos hp (a := (hi - lo) / 2) (by linarith)
        exact ⟨h1, h2, by simp, by simp [Part.specs], fun _ => rfl⟩
      · obtain ⟨h1, h2⟩ := rowChange_pos hp (half_pos (squaresLength_pos q3))
        exact ⟨h1, h2, by simp, by simp [Part.specs], fun _ => rfl⟩
    | _ => exact absurd hok (by simp [PartOk])
  · simp [documented] at hd
  · simp [documented] at hd

theorem noise_accurate {sigma : ℝ → ℝ → ℝ → ℝ} (hσ : ∀ e d x, 0 < e → 0 < d → 0 < x → 0 < sigma e d x) {ε δ : ℕ → ℝ}
    {kind : NoiseKind} {d : Documented} (h1 : 0 < d.l1) (h2 : 0 < d.l2) (hu : 0 < d.uses) (he : 0 < ε d.spec)
    (hd : kind = .gaussian → 0 < δ d.spec) (k : K) : d.Accurate sigma kind ε δ (d.noisy sigma kind ε δ k).law := by
  have hu' : (0 : ℝ) < d.uses := by exact_mod_cast hu
  cases kind with
  | laplace =>
    show LaplaceAround (noisy (.laplace (d.l1 / (ε d.spec / d.uses)) d.l1) d.value) d.value (d.l1 * d.uses / ε d.spec)
    rw [← div_div_eq_mul_div]
    exact laplace_around (by positivity) _ _
  | gaussian =>
    have hd' := hd rfl
    exact gaussian_around (hσ _ _ _ (by positivity) (by positivity) h2) _ _

/-! ### Pipelines -/

/-- **C91.**  In a pipeline of supported calls with total budget `(e, d)`, on data within the bounds, every number that is released
is the documented exact number on average.  With Laplace noise its error is `t` or more with probability
`exp (-t * ε / (Δ * uses))`, where `Δ` is the largest L1 change by one privacy id and `ε` the share of the budget; with Gaussian
noise the probability is at most `2 exp (-t² / (2 σ²))`. -/
theorem C91_results_are_accurate (fmt : ℚ → String) (sigma : ℝ → ℝ → ℝ → ℝ)
    (hσ : ∀ e d x, 0 < e → 0 < d → 0 < x → 0 < sigma e d x) (cs : List (Call R K)) (hs : ∀ c ∈ cs, c.Supported)
    (hm : ∀ p pub key value, Call.aggregate p pub key value ∈ cs → p.metrics ≠ []) {e d : ℚ} {num ws s0}
    (h0 : Budget.init e d num ws = .ok s0) (hd : (∃ c ∈ cs, c.NeedsDelta) → 0 < d) (ha : AnnouncedCalls num ws cs)
    (env : ℕ → Env K) (hB : ∀ j, (env j).backend.Lawful)
    (hcomb : ∀ j {A : Type} (merge : A → A → A), LawfulCombine merge ((env j).combine merge)) (pid : R → P) (data : List R)
    (hw : ∀ c ∈ cs, c.Within pid data) :
    ∃ bs ops L, planCalls fmt [] cs = .ok (bs, ops) ∧ bs.length = cs.length ∧
      (Budget.step (Budget.run s0 ops).1 .compute).2 = .unit ∧
      evalCalls sigma (specOf (Budget.step (Budget.run s0 ops).1 .compute).1) env pid data 0 cs bs = .ok L ∧
      List.Forall₂ (fun x l => (∀ k, k ∈ l.map Candidate.key ↔ k ∈ x.1.candidates data) ∧
        ∀ c ∈ l, List.Forall₂ (Documented.Accurate sigma x.1.kind (fun i => (shareEps e cs x i : ℝ))
            (fun i => (shareDelta d cs bs x i : ℝ))) (x.1.documented x.2 pid data c.key) (c.numbers.map Noisy.law))
        (cs.zip bs) L := by
  obtain ⟨bs, ops, hp, hlen, hc, hbo⟩ := planned_budgets fmt cs hs hm h0 hd ha
  obtain ⟨L, g1, g2⟩ := calls_release (sigma := sigma) (ε := fun x i => (shareEps e cs x i : ℝ))
    (δ := fun x i => (shareDelta d cs bs x i : ℝ)) env hB hcomb pid data hs hw 0 hp hbo
  refine ⟨bs, ops, L, hp, hlen, hc, g1, ?_⟩
  have hmem : ∀ x ∈ cs.zip bs, ∀ part ∈ x.2.parts, ∀ i ∈ part.specs, SpecOk
      (specOf (Budget.step (Budget.run s0 ops).1 .compute).1) (fun i => (shareEps e cs x i : ℝ))
        (fun i => (shareDelta d cs bs x i : ℝ)) i (part.mechanism x.1.kind) := fun x hx => (hbo x hx).parts
  have hbuild := planned_build hp
  rw [List.forall₂_iff_get] at g2 ⊢
  refine ⟨g2.1, fun n h1 h2 => ?_⟩
  have hr := g2.2 n h1 h2
  have hx : (cs.zip bs).get ⟨n, h1⟩ ∈ cs.zip bs := List.get_mem _ _
  generalize (cs.zip bs).get ⟨n, h1⟩ = x at hr hx ⊢
  refine ⟨hr.keys, fun c hcm => ?_⟩
  rw [hr.numbers c hcm]
  obtain ⟨rs1, rs2, hb⟩ := hbuild x hx
  rcases x with ⟨call, b⟩
  cases call with
  | select p key => simp [Call.numbers, Call.documented]
  | aggregate p pub key value =>
    have hsup : SupportedAggregate p pub := hs _ (List.of_mem_zip hx).1
    obtain ⟨⟨rs1, hcc⟩, -⟩ := build_aggregate hb
    obtain ⟨hok, -⟩ := parts_ok_any hsup.any hcc
    simp only [Call.numbers, Call.documented, List.map_map, List.forall₂_map_right_iff, List.forall₂_same]
    intro doc hdoc
    obtain ⟨part, hpart, hdoc⟩ := List.mem_flatMap.mp hdoc
    obtain ⟨q1, q2, q3, q4, q5⟩ := documented_pos hsup.bounds (hok part hpart) _ _ doc hdoc
    have hspec := hmem _ hx part hpart _ q4
    refine noise_accurate hσ q1 q2 q3 hspec.eps (fun hk => hspec.pos ?_) _
    rw [q5, show (Call.aggregate p pub key value).kind = p.noiseKind from rfl,
      show p.noiseKind = .gaussian from hk]
    simp [NoiseKind.mechanism]

/-! ### Calls with one metric and public partitions -/

theorem valuesIn_relevant {ps : List K} {k : K} (hk : k ∈ ps) (pid : R → P) (key : R → K) (value : R → ℚ) (data : List R) :
    valuesIn k (relevant (some ps) (extract pid key value data)) = (data.filter fun r => key r = k).map value := by
  unfold valuesIn relevant extract
  induction data with
  | nil => rfl
  | cons r data ih =>
    by_cases h : key r = k
    · simp [h, hk] at ih ⊢
      exact ih
    · by_cases h' : key r ∈ ps
      · simp [h, h'] at ih ⊢
        exact ih
      · simp [h, h'] at ih ⊢
        exact ih

theorem usersIn_relevant {ps : List K} {k : K} (hk : k ∈ ps) (pid : R → P) (key : R → K) (value : R → ℚ) (data : List R) :
    usersIn k (relevant (some ps) (extract pid key value data)) = ((data.filter fun r => key r = k).map pid).dedup := by
  unfold usersIn relevant extract
  congr 1
  induction data with
  | nil => rfl
  | cons r data ih =>
    by_cases h : key r = k
    · simp [h, hk] at ih ⊢
      exact ih
    · by_cases h' : key r ∈ ps
      · simp [h, h'] at ih ⊢
        exact ih
      · simp [h, h'] at ih ⊢
        exact ih

/-- A pipeline of one call with public partitions, which builds the combiners `parts`. -/
theorem single_accurate (fmt : ℚ → String) (sigma : ℝ → ℝ → ℝ → ℝ) {p : Params} {ps : List K} {key : R → K} {value : R → ℚ}
    (hs : SupportedAggregate p (some ps)) (hm : p.metrics ≠ []) (hk : p.noiseKind = .laplace) {parts : List Part} {reqs}
    (hc : createCompound fmt p [] = (.ok parts, reqs)) {e d : ℚ} {s0} (h0 : Budget.init e d none none = .ok s0)
    (env : Env K) (hB : env.backend.Lawful)
    (hcomb : ∀ {A : Type} (merge : A → A → A), LawfulCombine merge (env.combine merge)) (pid : R → P) (data : List R)
    (hw : (Call.aggregate p (some ps) key value).Within pid data) :
    ∃ ops l, planCalls fmt [] [Call.aggregate p (some ps) key value] = .ok ([⟨parts, none⟩], ops) ∧
      evalCalls sigma (specOf (Budget.step (Budget.run s0 ops).1 .compute).1) (fun _ => env) pid data 0
        [Call.aggregate p (some ps) key value] [⟨parts, none⟩] = .ok [l] ∧
      (∀ k, k ∈ l.map Candidate.key ↔ k ∈ ps) ∧
      (∀ c ∈ l, c.gate = .always ∧ c.numbers.map (fun n => (n.spec, n.comp))
        = (parts.flatMap (documented p (relevant (some ps) (extract pid key value data)) c.key)).map fun d => (d.spec, d.comp)) ∧
      ∀ c ∈ l, List.Forall₂ (fun (doc : Documented) law => LaplaceAround law doc.value (doc.l1 * doc.uses /
          ((shareEps e [Call.aggregate (R := R) p (some ps) key value] (.aggregate p (some ps) key value, ⟨parts, none⟩) doc.spec : ℚ) : ℝ)))
        (parts.flatMap (documented p (relevant (some ps) (extract pid key value data)) c.key)) (c.numbers.map Noisy.law) := by
  set call := Call.aggregate (R := R) p (some ps) key value with hcall
  have hs' : ∀ c ∈ [call], c.Supported := by
    intro c hc; rw [List.mem_singleton] at hc; subst hc; exact hs
  have hm' : ∀ p' pub key' value', Call.aggregate p' pub key' value' ∈ [call] → p'.metrics ≠ [] := by
    intro p' pub key' value' h'
    simp only [hcall, List.mem_singleton, Call.aggregate.injEq] at h'
    rw [h'.1]; exact hm
  have hd : (∃ c ∈ [call], c.NeedsDelta) → 0 < d := by
    rintro ⟨c, h1, h2⟩
    rw [List.mem_singleton] at h1
    subst h1
    simp [hcall, Call.NeedsDelta, hk] at h2
  obtain ⟨bs, ops, hp, hlen, -, hbo⟩ := planned_budgets fmt [call] hs' hm' h0 hd ⟨by simp, by simp⟩
  have hb : bs = [⟨parts, none⟩] := by
    have hp' := hp
    simp only [hcall, planCalls, build, hc, selectsPrivately, Option.isNone_some, Bool.false_and, Bool.false_eq_true, if_false,
      Except.ok.injEq, Prod.mk.injEq] at hp'
    exact hp'.1.symm
  subst hb
  obtain ⟨L, g1, g2⟩ := calls_release (sigma := sigma) (ε := fun x i => (shareEps e [call] x i : ℝ))
    (δ := fun x i => (shareDelta d [call] [⟨parts, none⟩] x i : ℝ)) (fun _ => env) (fun _ => hB) (fun _ => hcomb) pid data hs'
    (by intro c hc; rw [List.mem_singleton] at hc; subst hc; exact hw) 0 hp hbo
  rw [List.zip_cons_cons, List.zip_nil_right] at g2
  rcases L with _ | ⟨l, _ | ⟨l', L⟩⟩
  · cases g2
  · obtain ⟨hr, -⟩ := List.forall₂_cons.mp g2
    refine ⟨ops, l, hp, g1, hr.keys, fun c hcm => ⟨?_, ?_⟩, fun c hcm => ?_⟩
    · rw [hr.gate c hcm]; rfl
    · rw [hr.numbers c hcm]
      simp only [hcall, Call.numbers, List.map_map]
      rfl
    have hx : (call, (⟨parts, none⟩ : Built)) ∈ [call].zip [⟨parts, none⟩] := by simp
    obtain ⟨hok, -⟩ := parts_ok_any hs.any hc
    rw [hr.numbers c hcm]
    simp only [hcall, Call.numbers, List.map_map, List.forall₂_map_right_iff, List.forall₂_same]
    intro doc hdoc
    obtain ⟨part, hpart, hdoc⟩ := List.mem_flatMap.mp hdoc
    obtain ⟨q1, q2, q3, q4, -⟩ := documented_pos hs.bounds (hok part hpart) _ _ doc hdoc
    have hspec := (hbo _ hx).parts part hpart _ q4
    have hu' : (0 : ℝ) < doc.uses := by exact_mod_cast q3
    have he := hspec.eps
    simp only [Function.comp, hk]
    rw [← div_div_eq_mul_div]
    exact laplace_around (by positivity) _ _
  · have := g2.length_eq
    simp at this

/-- **C91** (COUNT).  COUNT for public partitions with Laplace noise and epsilon `e`, at most `l0` partitions per privacy id and
`linf` rows in each: the released count of every public partition, also of those without data, is the number of its rows on
average, and the error is `t` or more with probability `exp (-t * e / (l0 * linf))`. -/
theorem C91_count_is_accurate (fmt : ℚ → String) (sigma : ℝ → ℝ → ℝ → ℝ) {p : Params} {ps : List K} {key : R → K} {value : R → ℚ}
    (hs : SupportedAggregate p (some ps)) (hm : p.metrics = [.count]) (hk : p.noiseKind = .laplace) {l0 linf : ℕ}
    (hl0 : p.maxPartitions = some l0) (hlinf : p.maxPerPartition = some linf) (hmc : p.maxContributions = none)
    {e d : ℚ} {s0} (h0 : Budget.init e d none none = .ok s0) (env : Env K) (hB : env.backend.Lawful)
    (hcomb : ∀ {A : Type} (merge : A → A → A), LawfulCombine merge (env.combine merge)) (pid : R → P) (data : List R)
    (hw : (Call.aggregate p (some ps) key value).Within pid data) :
    ∃ ops bs l, planCalls fmt [] [Call.aggregate p (some ps) key value] = .ok (bs, ops) ∧
      evalCalls sigma (specOf (Budget.step (Budget.run s0 ops).1 .compute).1) (fun _ => env) pid data 0
        [Call.aggregate p (some ps) key value] bs = .ok [l] ∧
      (∀ k, k ∈ l.map Candidate.key ↔ k ∈ ps) ∧ (∀ c ∈ l, c.gate = .always ∧ c.numbers.map (fun n => (n.spec, n.comp)) = [(0, 0)]) ∧
      ∀ c ∈ l, ∃ law, c.numbers.map Noisy.law = [law] ∧
        LaplaceAround law (data.filter fun r => key r = c.key).length (l0 * linf / e) := by
  have hw0 : p.budgetWeight ≠ 0 := hs.weight.ne'
  have hc : createCompound fmt p [] = (.ok [.count 0], [⟨p.noiseKind.mechanism, p.budgetWeight⟩]) := by
    simp [createCompound, scalarParts, privacyIdPart, vectorPart, quantilePart, hm, requestBudget, Metric.percentile?, Part.names]
  obtain ⟨ops, l, h1, h2, h3, hg, h4⟩ := single_accurate fmt sigma (key := key) (value := value) hs (by simp [hm]) hk hc h0 env hB hcomb
    pid data hw
  refine ⟨ops, _, l, h1, h2, h3, fun c hc => by simpa [documented] using hg c hc, fun c hcm => ?_⟩
  have h5 := h4 c hcm
  have hkey : c.key ∈ ps := (h3 c.key).mp (List.mem_map_of_mem hcm)
  simp only [documented, List.flatMap_cons, List.flatMap_nil, List.append_nil, List.forall₂_cons_left_iff,
    List.forall₂_nil_left_iff] at h5
  obtain ⟨law, _, h6, rfl, h7⟩ := h5
  refine ⟨law, h7, ?_⟩
  rw [valuesIn_relevant hkey pid key value data] at h6
  convert h6 using 1
  · simp
  · simp [rowChange, hmc, hl0, hlinf, shareEps, budgetPart, innerWeight, Built.specs, Part.specs, Call.weight, hw0]

/-- **C91** (PRIVACY_ID_COUNT).  As for COUNT; the released number is the number of privacy ids of the partition on average, and the
error is `t` or more with probability `exp (-t * e / l0)`. -/
theorem C91_privacy_id_count_is_accurate (fmt : ℚ → String) (sigma : ℝ → ℝ → ℝ → ℝ) {p : Params} {ps : List K} {key : R → K} {value : R → ℚ}
    (hs : SupportedAggregate p (some ps)) (hm : p.metrics = [.privacyIdCount]) (hk : p.noiseKind = .laplace) {l0 linf : ℕ}
    (hl0 : p.maxPartitions = some l0) (hlinf : p.maxPerPartition = some linf) (hmc : p.maxContributions = none)
    (ht : p.postThresholding = false)
    {e d : ℚ} {s0} (h0 : Budget.init e d none none = .ok s0) (env : Env K) (hB : env.backend.Lawful)
    (hcomb : ∀ {A : Type} (merge : A → A → A), LawfulCombine merge (env.combine merge)) (pid : R → P) (data : List R)
    (hw : (Call.aggregate p (some ps) key value).Within pid data) :
    ∃ ops bs l, planCalls fmt [] [Call.aggregate p (some ps) key value] = .ok (bs, ops) ∧
      evalCalls sigma (specOf (Budget.step (Budget.run s0 ops).1 .compute).1) (fun _ => env) pid data 0
        [Call.aggregate p (some ps) key value] bs = .ok [l] ∧
      (∀ k, k ∈ l.map Candidate.key ↔ k ∈ ps) ∧ (∀ c ∈ l, c.gate = .always ∧ c.numbers.map (fun n => (n.spec, n.comp)) = [(0, 0)]) ∧
      ∀ c ∈ l, ∃ law, c.numbers.map Noisy.law = [law] ∧
        LaplaceAround law ((data.filter fun r => key r = c.key).map pid).dedup.length (l0 / e) := by
  have hw0 : p.budgetWeight ≠ 0 := hs.weight.ne'
  have hc : createCompound fmt p [] = (.ok [.privacyIdCount 0], [⟨p.noiseKind.mechanism, p.budgetWeight⟩]) := by
    simp [createCompound, scalarParts, privacyIdPart, vectorPart, quantilePart, hm, requestBudget, Metric.percentile?, Part.names, ht]
  obtain ⟨ops, l, h1, h2, h3, hg, h4⟩ := single_accurate fmt sigma (key := key) (value := value) hs (by simp [hm]) hk hc h0 env hB hcomb
    pid data hw
  refine ⟨ops, _, l, h1, h2, h3, fun c hc => by simpa [documented] using hg c hc, fun c hcm => ?_⟩
  have h5 := h4 c hcm
  have hkey : c.key ∈ ps := (h3 c.key).mp (List.mem_map_of_mem hcm)
  simp only [documented, List.flatMap_cons, List.flatMap_nil, List.append_nil, List.forall₂_cons_left_iff,
    List.forall₂_nil_left_iff] at h5
  obtain ⟨law, _, h6, rfl, h7⟩ := h5
  refine ⟨law, h7, ?_⟩
  rw [usersIn_relevant hkey pid key value data] at h6
  convert h6 using 1
  · simp
  · simp [idChange, hmc, hl0, shareEps, budgetPart, innerWeight, Built.specs, Part.specs, Call.weight, hw0]

/-- **C91** (SUM).  As for COUNT, with values between `lo` and `hi`: the released number is the sum of the clamped values on average,
and the error is `t` or more with probability `exp (-t * e / (l0 * linf * max |lo| |hi|))`. -/
theorem C91_sum_is_accurate (fmt : ℚ → String) (sigma : ℝ → ℝ → ℝ → ℝ) {p : Params} {ps : List K} {key : R → K} {value : R → ℚ}
    (hs : SupportedAggregate p (some ps)) (hm : p.metrics = [.sum]) (hk : p.noiseKind = .laplace) {l0 linf : ℕ}
    (hl0 : p.maxPartitions = some l0) (hlinf : p.maxPerPartition = some linf) (hmc : p.maxContributions = none)
    {lo hi : ℚ} (hlo : p.minValue = some lo) (hhi : p.maxValue = some hi)
    {e d : ℚ} {s0} (h0 : Budget.init e d none none = .ok s0) (env : Env K) (hB : env.backend.Lawful)
    (hcomb : ∀ {A : Type} (merge : A → A → A), LawfulCombine merge (env.combine merge)) (pid : R → P) (data : List R)
    (hw : (Call.aggregate p (some ps) key value).Within pid data) :
    ∃ ops bs l, planCalls fmt [] [Call.aggregate p (some ps) key value] = .ok (bs, ops) ∧
      evalCalls sigma (specOf (Budget.step (Budget.run s0 ops).1 .compute).1) (fun _ => env) pid data 0
        [Call.aggregate p (some ps) key value] bs = .ok [l] ∧
      (∀ k, k ∈ l.map Candidate.key ↔ k ∈ ps) ∧ (∀ c ∈ l, c.gate = .always ∧ c.numbers.map (fun n => (n.spec, n.comp)) = [(0, 0)]) ∧
      ∀ c ∈ l, ∃ law, c.numbers.map Noisy.law = [law] ∧
        LaplaceAround law ((((data.filter fun r => key r = c.key).map fun r => min (max (value r) lo) hi).sum : ℚ) : ℝ)
          (l0 * linf * (max |lo| |hi| : ℚ) / e) := by
  have hw0 : p.budgetWeight ≠ 0 := hs.weight.ne'
  have hc : createCompound fmt p [] = (.ok [.sum 0], [⟨p.noiseKind.mechanism, p.budgetWeight⟩]) := by
    simp [createCompound, scalarParts, privacyIdPart, vectorPart, quantilePart, hm, requestBudget, Metric.percentile?, Part.names]
  obtain ⟨ops, l, h1, h2, h3, hg, h4⟩ := single_accurate fmt sigma (key := key) (value := value) hs (by simp [hm]) hk hc h0 env hB hcomb
    pid data hw
  have hms : p.minSum = none ∨ p.maxSum = none := by
    rcases hs.sum (by simp [hm]) (by simp [hm]) (by simp [hm]) with ⟨_, _, -, -, -, -, q⟩ | ⟨_, _, -, -, -, -, q, -⟩
    · rcases h3 : p.minSum with _ | a <;> rcases h4 : p.maxSum with _ | b <;> simp [Params.sumBoundsSet, h3, h4] at q ⊢
    · rw [hlo] at q; cases q
  have hdoc : ∀ k, documented p (relevant (some ps) (extract pid key value data)) k (.sum 0)
      = [{ spec := 0, comp := 0,
           value := ((valuesIn k (relevant (some ps) (extract pid key value data))).map fun v => min (max v lo) hi).sum,
           l1 := (rowChange p (max |lo| |hi|)).1, l2 := (rowChange p (max |lo| |hi|)).2 }] := by
    intro k
    rcases hms with q | q <;> rcases h3 : p.minSum with _ | a <;> simp [documented, q, h3, hlo, hhi] at q ⊢
    all_goals rw [h3] at q; cases q
  refine ⟨ops, _, l, h1, h2, h3, fun c hc => by simpa [hdoc] using hg c hc, fun c hcm => ?_⟩
  have h5 := h4 c hcm
  have hkey : c.key ∈ ps := (h3 c.key).mp (List.mem_map_of_mem hcm)
  simp only [hdoc, List.flatMap_cons, List.flatMap_nil, List.append_nil, List.forall₂_cons_left_iff,
    List.forall₂_nil_left_iff] at h5
  obtain ⟨law, _, h6, rfl, h7⟩ := h5
  refine ⟨law, h7, ?_⟩
  rw [valuesIn_relevant hkey pid key value data, List.map_map] at h6
  simp only [Function.comp_def] at h6
  convert h6 using 1
  simp [rowChange, hmc, hl0, hlinf, shareEps, budgetPart, innerWeight, Built.specs, Part.specs, Call.weight, hw0]
  ring

/-! ### MEAN -/

/-- **C91** (MEAN, computation).  The released mean is `meanFrom` of the noisy count and the noisy sum (`combiners.py:488-519`, `dp_computations.py:562-568`). -/
theorem C91_mean_of_noisy_values (noiseCount noiseSum : ℚ → ℚ) (lo hi : ℚ) (acc : ℕ × ℚ) :
    ((releaseMean noiseCount noiseSum lo hi acc).mean : ℝ) = meanFrom lo hi (noiseCount acc.1, noiseSum acc.2) := by
  simp only [releaseMean, computeMean, meanFrom, middle]
  push_cast
  ring

theorem clamped_sum_bound {lo hi : ℚ} (h : lo ≤ hi) (l : List ℚ) :
    |(l.map fun v => min (max v lo) hi - (lo + hi) / 2).sum| ≤ l.length * ((hi - lo) / 2) := by
  induction l with
  | nil => simp
  | cons v l ih =>
    simp only [List.map_cons, List.sum_cons, List.length_cons, Nat.cast_succ]
    have h1 : |min (max v lo) hi - (lo + hi) / 2| ≤ (hi - lo) / 2 := by
      have h2 : min (max v lo) hi ≤ hi := min_le_right _ _
      have h3 : lo ≤ min (max v lo) hi := le_min (le_max_right _ _) h
      rw [abs_le]; constructor <;> linarith
    have := abs_add_le (min (max v lo) hi - (lo + hi) / 2) (l.map fun v => min (max v lo) hi - (lo + hi) / 2).sum
    linarith

/-- Errors of the count and of the sum become errors of the mean. -/
theorem mean_error {n : ℕ} {lo hi : ℚ} {s : ℝ} {m a b : ℝ} {x : ℝ × ℝ} (ha : 0 ≤ a) (hn : a + 1 ≤ n)
    (hs : |s| ≤ n * ((hi - lo) / 2)) (hm : m = (lo + hi) / 2 + s / n) (h1 : |x.1 - n| < a) (h2 : |x.2 - s| < b) :
    |meanFrom lo hi x - m| ≤ (b + a * ((hi - lo) / 2)) / (n - a) := by
  obtain ⟨h3, h4⟩ := abs_lt.mp h1
  have hn0 : (0 : ℝ) < n := by linarith
  have hx : 1 ≤ x.1 := by linarith
  have hx0 : 0 < x.1 := by linarith
  unfold meanFrom
  rw [max_eq_right hx, hm]
  have h5 : (lo + hi : ℝ) / 2 + x.2 / x.1 - ((lo + hi) / 2 + s / n) = ((x.2 - s) + s / n * (n - x.1)) / x.1 := by
    field_simp; ring
  rw [h5, abs_div, abs_of_pos hx0]
  have h6 : |s / n| ≤ (hi - lo) / 2 := by
    rw [abs_div, abs_of_pos hn0, div_le_iff₀ hn0]; linarith
  have h7 : |s / n * (n - x.1)| ≤ (hi - lo) / 2 * a := by
    rw [abs_mul]
    refine mul_le_mul h6 ?_ (abs_nonneg _) (le_trans (abs_nonneg _) h6)
    rw [abs_sub_comm]; exact h1.le
  have h8 : |x.2 - s + s / n * (n - x.1)| ≤ b + a * ((hi - lo) / 2) := by
    have := abs_add_le (x.2 - s) (s / n * (n - x.1)); linarith
  exact div_le_div₀ (le_trans (abs_nonneg _) h8) h8 (by linarith) (by linarith)

/-- **C91** (MEAN).  MEAN for public partitions with Laplace noise and epsilon `e`: half of it is used for the count and half for the
sum.  In a partition with `n` rows, for any `a ≤ n - 1` and any `b`, the error of the released mean is more than
`(b + a * (hi - lo) / 2) / (n - a)` with probability at most
`exp (-a * (e / 2) / (l0 * linf)) + exp (-b * (e / 2) / (l0 * linf * (hi - lo) / 2))`. -/
theorem C91_mean_is_accurate (fmt : ℚ → String) (sigma : ℝ → ℝ → ℝ → ℝ) {p : Params} {ps : List K} {key : R → K} {value : R → ℚ}
    (hs : SupportedAggregate p (some ps)) (hm : p.metrics = [.mean]) (hk : p.noiseKind = .laplace) {l0 linf : ℕ}
    (hl0 : p.maxPartitions = some l0) (hlinf : p.maxPerPartition = some linf) (hmc : p.maxContributions = none)
    {lo hi : ℚ} (hlo : p.minValue = some lo) (hhi : p.maxValue = some hi)
    {e d : ℚ} {s0} (h0 : Budget.init e d none none = .ok s0) (env : Env K) (hB : env.backend.Lawful)
    (hcomb : ∀ {A : Type} (merge : A → A → A), LawfulCombine merge (env.combine merge)) (pid : R → P) (data : List R)
    (hw : (Call.aggregate p (some ps) key value).Within pid data) :
    ∃ ops bs l, planCalls fmt [] [Call.aggregate p (some ps) key value] = .ok (bs, ops) ∧
      evalCalls sigma (specOf (Budget.step (Budget.run s0 ops).1 .compute).1) (fun _ => env) pid data 0
        [Call.aggregate p (some ps) key value] bs = .ok [l] ∧
      (∀ k, k ∈ l.map Candidate.key ↔ k ∈ ps) ∧
      ∀ c ∈ l, ∃ count sum, c.numbers.map Noisy.law = [count, sum] ∧
        ∀ a b : ℝ, 0 ≤ a → 0 ≤ b → a + 1 ≤ (data.filter fun r => key r = c.key).length →
          (count.prod sum) {x | (b + a * ((hi - lo) / 2)) / ((data.filter fun r => key r = c.key).length - a)
              < |meanFrom lo hi x - averageOf ((data.filter fun r => key r = c.key).map fun r => min (max (value r) lo) hi)|}
            ≤ ENNReal.ofReal (Real.exp (-a * (e / 2) / (l0 * linf)))
              + ENNReal.ofReal (Real.exp (-b * (e / 2) / (l0 * linf * ((hi - lo) / 2)))) := by
  have hw0 : p.budgetWeight ≠ 0 := hs.weight.ne'
  have hc : createCompound fmt p [] = (.ok [.mean 0 1 ["mean"]], [⟨p.noiseKind.mechanism, p.budgetWeight⟩, ⟨p.noiseKind.mechanism, p.budgetWeight⟩]) := by
    simp [createCompound, scalarParts, privacyIdPart, vectorPart, quantilePart, hm, requestBudget, Metric.percentile?, Part.names]
  obtain ⟨ops, l, h1, h2, h3, hg, h4⟩ := single_accurate fmt sigma (key := key) (value := value) hs (by simp [hm]) hk hc h0 env hB hcomb
    pid data hw
  refine ⟨ops, _, l, h1, h2, h3, fun c hcm => ?_⟩
  have h5 := h4 c hcm
  have hkey : c.key ∈ ps := (h3 c.key).mp (List.mem_map_of_mem hcm)
  obtain ⟨lo', hi', q1, q2, q3⟩ := hs.mean (by simp [hm]) (by simp [hm])
  rw [hlo] at q1; rw [hhi] at q2
  cases q1; cases q2
  simp only [documented, hlo, hhi, Option.getD_some, List.flatMap_cons, List.flatMap_nil, List.append_nil,
    List.forall₂_cons_left_iff, List.forall₂_nil_left_iff] at h5
  obtain ⟨μ, _, h6, ⟨ν, _, h6', rfl, rfl⟩, h7⟩ := h5
  refine ⟨μ, ν, h7, fun a b ha hb hn => ?_⟩
  rw [valuesIn_relevant hkey pid key value data] at h6 h6'
  set rows := data.filter fun r => key r = c.key with hrows
  have := h6.prob
  have := h6'.prob
  have hn0 : (0 : ℝ) < rows.length := by linarith
  set s : ℚ := ((rows.map value).map fun v => min (max v lo) hi - (lo + hi) / 2).sum with hsdef
  have hs1 : |(s : ℝ)| ≤ rows.length * ((hi - lo) / 2) := by
    have := clamped_sum_bound q3.le (rows.map value)
    rw [List.length_map] at this
    exact_mod_cast this
  have hs2 : ((averageOf (rows.map fun r => min (max (value r) lo) hi) : ℚ) : ℝ) = (lo + hi) / 2 + s / rows.length := by
    have h8 := sum_shift (rows.map value) (fun v => min (max v lo) hi) ((lo + hi) / 2)
    rw [← hsdef, List.length_map, List.map_map] at h8
    have h9 : (rows.map fun r => min (max (value r) lo) hi).sum = s + rows.length * ((lo + hi) / 2) := by
      rw [h8]; simp only [Function.comp_def]; ring
    simp only [averageOf, List.length_map, h9]
    push_cast
    field_simp
    ring
  have hsub : {x : ℝ × ℝ | (b + a * ((hi - lo) / 2)) / (rows.length - a)
      < |meanFrom lo hi x - averageOf (rows.map fun r => min (max (value r) lo) hi)|}
      ⊆ ({v : ℝ | a ≤ |v - rows.length|} ×ˢ Set.univ) ∪ (Set.univ ×ˢ {v : ℝ | b ≤ |v - s|}) := by
    intro x hx
    by_contra hcon
    simp only [Set.mem_union, Set.mem_prod, Set.mem_ofPred_eq, Set.mem_univ, and_true, true_and, not_or, not_le] at hcon
    exact absurd (mean_error ha hn hs1 hs2 hcon.1 hcon.2) (not_le.mpr hx)
  refine (measure_mono hsub).trans ((measure_union_le _ _).trans ?_)
  rw [Measure.prod_prod, Measure.prod_prod, measure_univ, measure_univ, mul_one, one_mul]
  have e1 := h6.error a ha
  have e2 := h6'.error b hb
  refine add_le_add (le_of_eq ?_) (le_of_eq ?_)
  · rw [List.length_map, Rat.cast_natCast] at e1
    rw [e1]
    congr 2
    simp [rowChange, hmc, hl0, hlinf, shareEps, budgetPart, innerWeight, Built.specs, Part.specs, Call.weight]
    field_simp
    ring
  · rw [e2]
    congr 2
    simp [rowChange, hmc, hl0, hlinf, shareEps, budgetPart, innerWeight, Built.specs, Part.specs, Call.weight]
    field_simp
    ring

/-! ### VARIANCE -/

/-- **C91** (VARIANCE, computation).  The released variance is `varianceFrom` of the three noisy numbers (`combiners.py:566-578`,
`dp_computations.py:306-365`). -/
theorem C91_variance_of_noisy_values (noiseCount noiseSum noiseSquares : ℚ → ℚ) {lo hi : ℚ} (h : lo < hi) (acc : ℕ × ℚ × ℚ) :
    ((releaseVariance noiseCount noiseSum noiseSquares lo hi acc).variance : ℝ)
      = varianceFrom (noiseCount acc.1, noiseSum acc.2.1, noiseSquares acc.2.2) := by
  have hsq : (squaresInterval lo hi).1 ≠ (squaresInterval lo hi).2 := by
    unfold squaresInterval
    split
    · rename_i h'
      exact (lt_of_lt_of_le (by have := h'.2; positivity) (le_max_right _ _)).ne
    · rename_i h'
      intro h2
      simp only at h2
      rcases sq_eq_sq_iff_eq_or_eq_neg.mp h2 with h3 | h3
      · exact h.ne h3
      · exact h' ⟨by linarith, by linarith⟩
  simp only [releaseVariance, meanForNormalizedSum, if_neg h.ne, if_neg hsq, varianceFrom]
  push_cast
  rfl

theorem ratio_error {n : ℕ} {s m a b x y : ℝ} (hm : 0 ≤ m) (ha : 0 ≤ a) (hn : a + 1 ≤ n) (hs : |s| ≤ n * m) (h1 : |x - n| < a)
    (h2 : |y - s| < b) : |y / max 1 x - s / n| ≤ (b + a * m) / (n - a) := by
  obtain ⟨h3, h4⟩ := abs_lt.mp h1
  have hn0 : (0 : ℝ) < n := by linarith
  have hx : 1 ≤ x := by linarith
  have hx0 : 0 < x := by linarith
  rw [max_eq_right hx]
  have h5 : y / x - s / n = ((y - s) + s / n * (n - x)) / x := by
    field_simp; ring
  rw [h5, abs_div, abs_of_pos hx0]
  have h6 : |s / n| ≤ m := by
    rw [abs_div, abs_of_pos hn0, div_le_iff₀ hn0]; linarith
  have h7 : |s / n * (n - x)| ≤ m * a := by
    rw [abs_mul]
    refine mul_le_mul h6 ?_ (abs_nonneg _) hm
    rw [abs_sub_comm]; exact h1.le
  have h8 : |y - s + s / n * (n - x)| ≤ b + a * m := by
    have := abs_add_le (y - s) (s / n * (n - x)); linarith
  exact div_le_div₀ (le_trans (abs_nonneg _) h8) h8 (by linarith) (by linarith)

/-- Errors of the three numbers become errors of the variance. -/
theorem variance_error {n : ℕ} {m s q a b g μ κ : ℝ} {x : ℝ × ℝ × ℝ} (hm : 0 ≤ m) (ha : 0 ≤ a) (hn : a + 1 ≤ n)
    (hs : |s| ≤ n * m) (hq : |q| ≤ n * m ^ 2) (h1 : |x.1 - n| < a) (h2 : |x.2.1 - s| < b) (h3 : |x.2.2 - q| < g)
    (hμ : μ = (b + a * m) / (n - a)) (hκ : κ = (g + a * m ^ 2) / (n - a)) :
    |varianceFrom x - (q / n - (s / n) ^ 2)| ≤ κ + μ * (2 * m + μ) := by
  have e1 := ratio_error hm ha hn hs h1 h2
  have e2 := ratio_error (sq_nonneg m) ha hn hq h1 h3
  rw [← hμ] at e1
  rw [← hκ] at e2
  have hn0 : (0 : ℝ) < n := by linarith
  have h6 : |s / n| ≤ m := by
    rw [abs_div, abs_of_pos hn0, div_le_iff₀ hn0]; linarith
  unfold varianceFrom
  set u := x.2.1 / max 1 x.1
  set w := x.2.2 / max 1 x.1
  have h7 : w - u ^ 2 - (q / n - (s / n) ^ 2) = (w - q / n) - (u - s / n) * ((u - s / n) + 2 * (s / n)) := by ring
  rw [h7]
  have h8 : |(u - s / n) + 2 * (s / n)| ≤ 2 * m + μ := by
    have := abs_add_le (u - s / n) (2 * (s / n))
    rw [abs_mul, abs_two] at this
    linarith
  have h9 : |(u - s / n) * ((u - s / n) + 2 * (s / n))| ≤ μ * (2 * m + μ) := by
    rw [abs_mul]
    exact mul_le_mul e1 h8 (abs_nonneg _) (le_trans (abs_nonneg _) e1)
  have := abs_sub (w - q / n) ((u - s / n) * ((u - s / n) + 2 * (s / n)))
  linarith

theorem clamped_squares_bound {lo hi : ℚ} (h : lo ≤ hi) (l : List ℚ) :
    |(l.map fun v => (min (max v lo) hi - (lo + hi) / 2) ^ 2).sum| ≤ l.length * ((hi - lo) / 2) ^ 2 := by
  induction l with
  | nil => simp
  | cons v l ih =>
    simp only [List.map_cons, List.sum_cons, List.length_cons, Nat.cast_succ]
    have h1 : |(min (max v lo) hi - (lo + hi) / 2) ^ 2| ≤ ((hi - lo) / 2) ^ 2 := by
      have h2 : min (max v lo) hi ≤ hi := min_le_right _ _
      have h3 : lo ≤ min (max v lo) hi := le_min (le_max_right _ _) h
      rw [abs_of_nonneg (sq_nonneg _)]
      exact sq_le_sq' (by linarith) (by linarith)
    have := abs_add_le ((min (max v lo) hi - (lo + hi) / 2) ^ 2) (l.map fun v => (min (max v lo) hi - (lo + hi) / 2) ^ 2).sum
    linarith

theorem varianceOf_shift (l : List ℚ) (hl : l ≠ []) (m : ℚ) :
    varianceOf l = (l.map fun v => (v - m) ^ 2).sum / l.length - ((l.map fun v => v - m).sum / l.length) ^ 2 := by
  have hn : (l.length : ℚ) ≠ 0 := by
    have := List.length_pos_iff.mpr hl
    positivity
  have h1 := sum_sq_shift l (averageOf l)
  have h2 := sum_sq_shift l m
  have h3 := sum_shift l (fun v => v) m
  rw [List.map_id'] at h3
  unfold varianceOf
  rw [averageOf, List.length_map, h1, h2, h3]
  unfold averageOf
  field_simp
  ring

/-- **C91** (VARIANCE).  VARIANCE for public partitions with Laplace noise and epsilon `e`, of which each of the three numbers uses a
third.  In a partition with `n` rows, with `m = (hi - lo) / 2`, for any `a ≤ n - 1`, `b` and `g`, let `μ = (b + a * m) / (n - a)` and
`κ = (g + a * m ^ 2) / (n - a)`.  The error of the released variance is more than `κ + μ * (2 * m + μ)` with probability at most
`exp (-a * (e / 3) / (l0 * linf)) + exp (-b * (e / 3) / (l0 * linf * m)) + exp (-g * (e / 3) / (l0 * linf * r))`, where `r` is half
the length of the interval of the squares. -/
theorem C91_variance_is_accurate (fmt : ℚ → String) (sigma : ℝ → ℝ → ℝ → ℝ) {p : Params} {ps : List K} {key : R → K} {value : R → ℚ}
    (hs : SupportedAggregate p (some ps)) (hm : p.metrics = [.variance]) (hk : p.noiseKind = .laplace) {l0 linf : ℕ}
    (hl0 : p.maxPartitions = some l0) (hlinf : p.maxPerPartition = some linf) (hmc : p.maxContributions = none)
    {lo hi : ℚ} (hlo : p.minValue = some lo) (hhi : p.maxValue = some hi)
    {e d : ℚ} {s0} (h0 : Budget.init e d none none = .ok s0) (env : Env K) (hB : env.backend.Lawful)
    (hcomb : ∀ {A : Type} (merge : A → A → A), LawfulCombine merge (env.combine merge)) (pid : R → P) (data : List R)
    (hw : (Call.aggregate p (some ps) key value).Within pid data) :
    ∃ ops bs l, planCalls fmt [] [Call.aggregate p (some ps) key value] = .ok (bs, ops) ∧
      evalCalls sigma (specOf (Budget.step (Budget.run s0 ops).1 .compute).1) (fun _ => env) pid data 0
        [Call.aggregate p (some ps) key value] bs = .ok [l] ∧
      (∀ k, k ∈ l.map Candidate.key ↔ k ∈ ps) ∧
      ∀ c ∈ l, ∃ count sum squares, c.numbers.map Noisy.law = [count, sum, squares] ∧
        ∀ a b g m μ κ : ℝ, 0 ≤ a → 0 ≤ b → 0 ≤ g → a + 1 ≤ (data.filter fun r => key r = c.key).length → m = (hi - lo) / 2 →
          μ = (b + a * m) / ((data.filter fun r => key r = c.key).length - a) →
          κ = (g + a * m ^ 2) / ((data.filter fun r => key r = c.key).length - a) →
          (count.prod (sum.prod squares)) {x | κ + μ * (2 * m + μ)
              < |varianceFrom x - varianceOf ((data.filter fun r => key r = c.key).map fun r => min (max (value r) lo) hi)|}
            ≤ ENNReal.ofReal (Real.exp (-a * (e / 3) / (l0 * linf)))
              + ENNReal.ofReal (Real.exp (-b * (e / 3) / (l0 * linf * m)))
              + ENNReal.ofReal (Real.exp (-g * (e / 3) / (l0 * linf * ((squaresLength lo hi : ℚ) / 2)))) := by
  have hw0 : p.budgetWeight ≠ 0 := hs.weight.ne'
  have hc : createCompound fmt p [] = (.ok [.variance 0 ["variance"]], [⟨p.noiseKind.mechanism, p.budgetWeight⟩]) := by
    simp [createCompound, scalarParts, privacyIdPart, vectorPart, quantilePart, hm, requestBudget, Metric.percentile?, Part.names]
  obtain ⟨ops, l, h1, h2, h3, hg, h4⟩ := single_accurate fmt sigma (key := key) (value := value) hs (by simp [hm]) hk hc h0 env hB hcomb
    pid data hw
  refine ⟨ops, _, l, h1, h2, h3, fun c hcm => ?_⟩
  have h5 := h4 c hcm
  have hkey : c.key ∈ ps := (h3 c.key).mp (List.mem_map_of_mem hcm)
  obtain ⟨⟨lo', hi', q1, q2, q3, -⟩, -⟩ := hs.variance (by simp [hm])
  rw [hlo] at q1; rw [hhi] at q2
  cases q1; cases q2
  simp only [documented, hlo, hhi, Option.getD_some, List.flatMap_cons, List.flatMap_nil, List.append_nil,
    List.forall₂_cons_left_iff, List.forall₂_nil_left_iff] at h5
  obtain ⟨μc, _, h6, ⟨μs, _, h6', ⟨μq, _, h6'', rfl, rfl⟩, rfl⟩, h7⟩ := h5
  refine ⟨μc, μs, μq, h7, fun a b g m μ κ ha hb hg hn hmm hμ hκ => ?_⟩
  rw [valuesIn_relevant hkey pid key value data] at h6 h6' h6''
  set rows := data.filter fun r => key r = c.key with hrows
  have := h6.prob
  have := h6'.prob
  have := h6''.prob
  have hn0 : (0 : ℝ) < rows.length := by linarith
  have hlt : (lo : ℝ) < hi := by exact_mod_cast q3
  have hm0 : 0 ≤ m := by rw [hmm]; linarith
  set s : ℚ := ((rows.map value).map fun v => min (max v lo) hi - (lo + hi) / 2).sum with hsdef
  set q : ℚ := ((rows.map value).map fun v => (min (max v lo) hi - (lo + hi) / 2) ^ 2).sum with hqdef
  have hs1 : |(s : ℝ)| ≤ rows.length * m := by
    have := clamped_sum_bound q3.le (rows.map value)
    rw [List.length_map] at this
    rw [hmm]
    exact_mod_cast this
  have hq1 : |(q : ℝ)| ≤ rows.length * m ^ 2 := by
    have := clamped_squares_bound q3.le (rows.map value)
    rw [List.length_map] at this
    rw [hmm]
    exact_mod_cast this
  have hv : ((varianceOf (rows.map fun r => min (max (value r) lo) hi) : ℚ) : ℝ) = q / rows.length - (s / rows.length) ^ 2 := by
    have hne : rows ≠ [] := by
      intro h0; rw [h0] at hn0; simp at hn0
    have h8 := varianceOf_shift (rows.map fun r => min (max (value r) lo) hi) (by simpa using hne) ((lo + hi) / 2)
    rw [List.length_map, List.map_map, List.map_map] at h8
    rw [h8, hsdef, hqdef, List.map_map, List.map_map]
    push_cast
    rfl
  have hsub : {x : ℝ × ℝ × ℝ | κ + μ * (2 * m + μ)
      < |varianceFrom x - varianceOf (rows.map fun r => min (max (value r) lo) hi)|}
      ⊆ ({v : ℝ | a ≤ |v - rows.length|} ×ˢ Set.univ) ∪ (Set.univ ×ˢ ({v : ℝ | b ≤ |v - s|} ×ˢ Set.univ))
        ∪ (Set.univ ×ˢ (Set.univ ×ˢ {v : ℝ | g ≤ |v - q|})) := by
    intro x hx
    by_contra hcon
    simp only [Set.mem_union, Set.mem_prod, Set.mem_ofPred_eq, Set.mem_univ, and_true, true_and, not_or, not_le] at hcon
    have := variance_error hm0 ha hn hs1 hq1 hcon.1.1 hcon.1.2 hcon.2 hμ hκ
    rw [← hv] at this
    exact absurd this (not_le.mpr hx)
  refine (measure_mono hsub).trans ((measure_union_le _ _).trans ((add_le_add_left (measure_union_le _ _) _).trans ?_))
  simp only [Measure.prod_prod, measure_univ, mul_one, one_mul]
  have e1 := h6.error a ha
  have e2 := h6'.error b hb
  have e3 := h6''.error g hg
  refine add_le_add (add_le_add (le_of_eq ?_) (le_of_eq ?_)) (le_of_eq ?_)
  · rw [List.length_map, Rat.cast_natCast] at e1
    rw [e1]
    congr 2
    simp [rowChange, hmc, hl0, hlinf, shareEps, budgetPart, innerWeight, Built.specs, Part.specs, Call.weight]
    field_simp
  · rw [e2]
    congr 2
    simp [rowChange, hmc, hl0, hlinf, shareEps, budgetPart, innerWeight, Built.specs, Part.specs, Call.weight, hmm]
    field_simp
  · rw [e3]
    congr 2
    simp [rowChange, hmc, hl0, hlinf, shareEps, budgetPart, innerWeight, Built.specs, Part.specs, Call.weight]
    field_simp

end PDP.EndToEnd
