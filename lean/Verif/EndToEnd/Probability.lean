import Verif.EndToEnd.Runs
import Mathlib.MeasureTheory.Integral.Pi
import Mathlib.MeasureTheory.Measure.Lebesgue.Integral
import Mathlib.Analysis.SpecialFunctions.ImproperIntegrals
import Mathlib.MeasureTheory.Measure.WithDensity

/-!
# A whole pipeline is differentially private: probabilities (C60)

The noise of every number is drawn independently from the distribution of its mechanism; the random samples of contribution
bounding are drawn before it, from any distribution.
-/

set_option linter.unusedSectionVars false

namespace PDP.EndToEnd

open PDP.Engine.AddNoise (specOf)
open PDP PDP.Engine MeasureTheory
open PDP.Engine.Mechanism (Additive laplaceDensity)
open PDP.Budget (State Op MechType)

variable {R P K : Type} [DecidableEq P] [DecidableEq K]

/-! ### Specification -/

/-- Distribution of the noise of a mechanism. -/
noncomputable def noiseLaw (m : Additive) : Measure ℝ := volume.withDensity fun t => ENNReal.ofReal (noiseDensity m t)

/-- Distribution of a noisy number: the exact number plus noise. -/
noncomputable def Noisy.law (n : Noisy K) : Measure ℝ := (noiseLaw n.mech).map fun t => (n.exact : ℝ) + t

/-- Distribution of the number with label `l`. -/
noncomputable def lawAt (L : List (Noisy K)) (l : K × ℕ × ℕ) : Measure ℝ :=
  match L.find? fun n => n.label = l with
  | some n => n.law
  | none => Measure.dirac 0

/-- Joint distribution of the numbers with labels `S`, with independent noise. -/
noncomputable def law (S : Finset (K × ℕ × ℕ)) (L : List (Noisy K)) : Measure (S → ℝ) := Measure.pi fun l : S => lawAt L l

/-! ### The Laplace distribution -/

theorem laplace_integral {b : ℝ} (hb : 0 < b) : ∫ t, laplaceDensity b t = 1 := by
  have h1 : (fun t => laplaceDensity b t) = fun t => (fun x => Real.exp (-b⁻¹ * x) / (2 * b)) |t| := by
    funext t
    simp only [laplaceDensity]
    congr 2
    rw [neg_div, div_eq_inv_mul, neg_mul]
  rw [h1, integral_comp_abs (f := fun x => Real.exp (-b⁻¹ * x) / (2 * b)), integral_div,
    integral_exp_mul_Ioi (by simpa using hb)]
  simp
  field_simp

theorem laplace_integrable {b : ℝ} (hb : 0 < b) : Integrable (laplaceDensity b) := by
  by_contra h
  have := integral_undef h
  rw [laplace_integral hb] at this
  exact one_ne_zero this

theorem laplace_measurable (b : ℝ) : Measurable (laplaceDensity b) := by
  unfold laplaceDensity
  fun_prop

/-! ### Products of densities -/

theorem map_add_withDensity (c : ℝ) {g : ℝ → ENNReal} (hg : Measurable g) :
    (volume.withDensity g).map (fun t => c + t) = volume.withDensity fun t => g (t - c) := by
  ext s hs
  rw [Measure.map_apply (measurable_const_add c) hs, withDensity_apply _ (measurable_const_add c hs), withDensity_apply _ hs]
  have := (measurePreserving_add_left volume c).setLIntegral_comp_preimage hs
    (f := fun t => g (t - c)) (hg.comp (measurable_sub_const c))
  rw [← this]
  simp

theorem pi_withDensity {ι : Type} [Fintype ι] (f : ι → ℝ → ℝ) (h0 : ∀ i t, 0 ≤ f i t)
    (hf : ∀ i, Integrable (f i)) :
    Measure.pi (fun i => volume.withDensity fun t => ENNReal.ofReal (f i t))
      = volume.withDensity fun x : ι → ℝ => ENNReal.ofReal (∏ i, f i (x i)) := by
  have : ∀ i, IsFiniteMeasure (volume.withDensity fun t => ENNReal.ofReal (f i t)) := fun i =>
    isFiniteMeasure_withDensity_ofReal (hf i).2
  apply Measure.pi_eq
  intro s hs
  have hbox : MeasurableSet (Set.univ.pi s) := MeasurableSet.univ_pi hs
  rw [withDensity_apply _ hbox, ← lintegral_indicator hbox]
  have h1 : (fun x : ι → ℝ => (Set.univ.pi s).indicator (fun x => ENNReal.ofReal (∏ i, f i (x i))) x)
      = fun x => ENNReal.ofReal (∏ i, (s i).indicator (f i) (x i)) := by
    funext x
    by_cases hx : x ∈ Set.univ.pi s
    · rw [Set.indicator_of_mem hx]
      congr 1
      refine Finset.prod_congr rfl fun i _ => ?_
      rw [Set.indicator_of_mem (hx i trivial)]
    · rw [Set.indicator_of_notMem hx]
      obtain ⟨i, hi⟩ : ∃ i, x i ∉ s i := by
        by_contra h
        push Not at h
        exact hx fun i _ => h i
      rw [Finset.prod_eq_zero (Finset.mem_univ i) (Set.indicator_of_notMem hi _), ENNReal.ofReal_zero]
  rw [h1, ← ofReal_integral_eq_lintegral_ofReal]
  · rw [integral_fintype_prod_volume_eq_prod (fun i => (s i).indicator (f i)), ENNReal.ofReal_prod_of_nonneg]
    · refine Finset.prod_congr rfl fun i _ => ?_
      rw [withDensity_apply _ (hs i), ← lintegral_indicator (hs i), ofReal_integral_eq_lintegral_ofReal]
      · congr 1
        funext t
        by_cases ht : t ∈ s i
        · simp [ht]
        · simp [ht]
      · exact (hf i).indicator (hs i)
      · exact Filter.Eventually.of_forall fun t => Set.indicator_nonneg (fun t _ => h0 i t) t
    · intro i _
      exact integral_nonneg fun t => Set.indicator_nonneg (fun t _ => h0 i t) t
  · exact Integrable.fintype_prod fun i => (hf i).indicator (hs i)
  · exact Filter.Eventually.of_forall fun x => Finset.prod_nonneg fun i _ => Set.indicator_nonneg (fun t _ => h0 i t) _

/-! ### The distribution of a release -/

/-- The Laplace releases. -/
def AllLaplace (L : List (Noisy K)) : Prop := ∀ n ∈ L, ∃ b x, n.mech = .laplace b x ∧ 0 < b

theorem find_label {L : List (Noisy K)} {l : K × ℕ × ℕ} (h : l ∈ L.map Noisy.label) :
    ∃ n ∈ L, n.label = l ∧ L.find? (fun n => n.label = l) = some n := by
  obtain ⟨n, hn, hl⟩ := List.mem_map.mp h
  have : (L.find? fun n => n.label = l).isSome := by
    rw [List.find?_isSome]
    exact ⟨n, hn, by simpa using hl⟩
  obtain ⟨m, hm⟩ := Option.isSome_iff_exists.mp this
  exact ⟨m, List.mem_of_find?_eq_some hm, by simpa using List.find?_some hm, hm⟩

theorem find_self {L : List (Noisy K)} (hn : (L.map Noisy.label).Nodup) {n : Noisy K} (h : n ∈ L) :
    L.find? (fun m => m.label = n.label) = some n := by
  obtain ⟨m, hm, hl, hf⟩ := find_label (List.mem_map.mpr ⟨n, h, rfl⟩)
  rw [hf, List.inj_on_of_nodup_map hn hm h hl]

/-- The density of the number with label `l`. -/
noncomputable def densityAt (L : List (Noisy K)) (l : K × ℕ × ℕ) (t : ℝ) : ℝ :=
  match L.find? fun n => n.label = l with
  | some n => noiseDensity n.mech (t - n.exact)
  | none => 0

theorem law_density {L : List (Noisy K)} (hn : (L.map Noisy.label).Nodup) (hL : AllLaplace L) (S : Finset (K × ℕ × ℕ))
    (hS : ∀ l, l ∈ S ↔ l ∈ L.map Noisy.label) :
    (∀ l : S, IsProbabilityMeasure (lawAt L l)) ∧
    law S L = volume.withDensity fun x : S → ℝ => ENNReal.ofReal
      (density L fun k i c => if h : (k, i, c) ∈ S then x ⟨(k, i, c), h⟩ else 0) := by
  have hl : ∀ l : S, (∀ t, 0 ≤ densityAt L l t) ∧ Integrable (densityAt L l) ∧
      ∫ t, densityAt L l t = 1 ∧ lawAt L l = volume.withDensity fun t => ENNReal.ofReal (densityAt L l t) := by
    intro l
    obtain ⟨n, hnL, hnl, hf⟩ := find_label ((hS l).mp l.2)
    obtain ⟨b, x, hm, hb⟩ := hL n hnL
    have hd : densityAt L l = fun t => laplaceDensity b (t - n.exact) := by
      funext t
      simp only [densityAt, hf, hm, noiseDensity]
    rw [hd]
    refine ⟨fun t => laplaceDensity_nonneg hb.le _,
      (laplace_integrable hb).comp_sub_right _, ?_, ?_⟩
    · rw [integral_sub_right_eq_self (laplaceDensity b)]
      exact laplace_integral hb
    · simp only [lawAt, hf, Noisy.law, noiseLaw, hm, noiseDensity]
      rw [map_add_withDensity _ (laplace_measurable b).ennreal_ofReal]
  constructor
  · intro l
    obtain ⟨h2, h3, h4, h5⟩ := hl l
    constructor
    rw [h5, withDensity_apply _ MeasurableSet.univ, Measure.restrict_univ, ← ofReal_integral_eq_lintegral_ofReal h3
      (Filter.Eventually.of_forall h2), h4, ENNReal.ofReal_one]
  · unfold law
    rw [show (fun l : S => lawAt L l) = fun l : S => volume.withDensity fun t => ENNReal.ofReal (densityAt L l t) from
      funext fun l => (hl l).2.2.2, pi_withDensity _ (fun l => (hl l).1) (fun l => (hl l).2.1)]
    congr 1
    funext x
    congr 1
    rw [density]
    have hS' : S = (L.map Noisy.label).toFinset := by
      ext l; rw [hS, List.mem_toFinset]
    set g : K × ℕ × ℕ → ℝ := fun l => densityAt L l (if h : l ∈ S then x ⟨l, h⟩ else 0) with hg
    have e1 : ∏ l : S, densityAt L l (x l) = ∏ l ∈ S, g l := by
      rw [← Finset.prod_coe_sort S g]
      refine Finset.prod_congr rfl fun l _ => ?_
      simp only [hg, l.2, dif_pos]
    have e2 : ∏ l ∈ S, g l = ((L.map Noisy.label).map g).prod := by
      rw [hS', List.prod_toFinset _ hn]
    rw [e1, e2, List.map_map]
    congr 1
    apply List.map_congr_left
    intro n hnL
    simp only [Function.comp_apply, hg, densityAt, find_self hn hnL]
    rfl

theorem law_le {L L' : List (Noisy K)} (hn : (L.map Noisy.label).Nodup) (hL : AllLaplace L)
    (hn' : (L'.map Noisy.label).Nodup) (hL' : AllLaplace L') (S : Finset (K × ℕ × ℕ))
    (hS : ∀ l, l ∈ S ↔ l ∈ L.map Noisy.label) (hS' : ∀ l, l ∈ S ↔ l ∈ L'.map Noisy.label) (e : ℝ)
    (h : ∀ o, density L o ≤ Real.exp e * density L' o) : law S L ≤ ENNReal.ofReal (Real.exp e) • law S L' := by
  rw [(law_density hn hL S hS).2, (law_density hn' hL' S hS').2, ← withDensity_smul' _ _ ENNReal.ofReal_ne_top]
  apply withDensity_mono
  refine Filter.Eventually.of_forall fun x => ?_
  simp only [Pi.smul_apply, smul_eq_mul]
  rw [← ENNReal.ofReal_mul (Real.exp_nonneg e)]
  exact ENNReal.ofReal_le_ofReal (h _)

/-- **C60** (probabilities).  A pipeline of `aggregate` calls with public partitions and Laplace noise on one naive accountant
with total budget `e` is `e`-differentially private.  The random choices `ω` of contribution bounding and of the runner have
any distribution `μ`; for each of them the numbers are released with independent noise.  The labels `S` of the released
numbers depend only on the parameters, and every event `A` has probabilities on the dataset and on the dataset without one
privacy id that differ by a factor of at most `exp e`. -/
theorem C60_pipeline_is_differentially_private (fmt : ℚ → String) (sigma : ℝ → ℝ → ℝ → ℝ) {e d : ℚ} {num ws s0}
    (h0 : Budget.init e d num ws = .ok s0) (qs : List (Query R K)) (hs : ∀ q ∈ qs, Supported q.params) {ps ops}
    (hp : plan fmt [] qs = .ok (ps, ops)) (hc : (Budget.step (Budget.run s0 ops).1 .compute).2 = .unit)
    {Ω : Type} [MeasurableSpace Ω] (μ : Measure Ω) (env : Ω → ℕ → Env K) (henv : ∀ ω j, (env ω j).Lawful)
    (pid : R → P) (data : List R) (u : P) (hu : ∀ q ∈ qs, CallerKeepsBounds q.params u (q.rows pid data))
    (hf : ∀ q ∈ qs, q.params.publicFiltered = true → ∀ r ∈ data, q.key r ∈ q.partitions) :
    let s := specOf (Budget.step (Budget.run s0 ops).1 .compute).1
    let S := (released sigma qs ps).toFinset
    ∃ L L' : Ω → List (Noisy K),
      (∀ ω, evalAll sigma s (env ω) pid data 0 qs ps = .ok (L ω) ∧
        evalAll sigma s (env ω) pid (removeId pid u data) 0 qs ps = .ok (L' ω) ∧
        IsProbabilityMeasure (law S (L ω)) ∧ IsProbabilityMeasure (law S (L' ω))) ∧
      ∀ A : Set (S → ℝ),
        ∫⁻ ω, law S (L ω) A ∂μ ≤ ENNReal.ofReal (Real.exp e) * ∫⁻ ω, law S (L' ω) A ∂μ ∧
        ∫⁻ ω, law S (L' ω) A ∂μ ≤ ENNReal.ofReal (Real.exp e) * ∫⁻ ω, law S (L ω) A ∂μ := by
  intro s S
  have key := fun ω => C60_pipeline_density_ratio fmt sigma h0 qs hs hp hc (env ω) (henv ω) pid data u hu hf
  choose L L' a1 a2 a3 a4 a5 a6 a7 using key
  have hS : ∀ ω l, l ∈ S ↔ l ∈ (L ω).map Noisy.label := fun ω l => by rw [List.mem_toFinset, a3]
  have hS' : ∀ ω l, l ∈ S ↔ l ∈ (L' ω).map Noisy.label := fun ω l => by rw [hS ω, (a5 ω).mem_iff]
  have n' : ∀ ω, ((L' ω).map Noisy.label).Nodup := fun ω => (a5 ω).nodup_iff.mp (a4 ω)
  have l1 : ∀ ω, AllLaplace (L ω) := fun ω n hn => a6 ω n (.inl hn)
  have l2 : ∀ ω, AllLaplace (L' ω) := fun ω n hn => a6 ω n (.inr hn)
  refine ⟨L, L', fun ω => ⟨a1 ω, a2 ω, ?_, ?_⟩, fun A => ⟨?_, ?_⟩⟩
  · have := (law_density (a4 ω) (l1 ω) S (hS ω)).1
    unfold law
    infer_instance
  · have := (law_density (n' ω) (l2 ω) S (hS' ω)).1
    unfold law
    infer_instance
  · rw [← lintegral_const_mul' _ _ ENNReal.ofReal_ne_top]
    refine lintegral_mono fun ω => ?_
    exact law_le (a4 ω) (l1 ω) (n' ω) (l2 ω) S (hS ω) (hS' ω) e (fun o => (a7 ω o).1) A
  · rw [← lintegral_const_mul' _ _ ENNReal.ofReal_ne_top]
    refine lintegral_mono fun ω => ?_
    exact law_le (n' ω) (l2 ω) (a4 ω) (l1 ω) S (hS' ω) (hS ω) e (fun o => (a7 ω o).2) A

/-! ### A concrete pipeline -/

/-- COUNT and MEAN, at most 2 partitions and 3 values in each, values in [0, 5]. -/
def exampleMean : Params where
  metrics := [.count, .mean]
  maxPartitions := some 2
  maxPerPartition := some 3
  minValue := some 0
  maxValue := some 5

/-- VARIANCE and PRIVACY_ID_COUNT with double weight, values in [1, 3]. -/
def exampleVariance : Params where
  metrics := [.variance, .privacyIdCount]
  maxPartitions := some 1
  maxPerPartition := some 2
  minValue := some 1
  maxValue := some 3
  budgetWeight := 2

/-- SUM with bounds per partition. -/
def exampleSum : Params where
  metrics := [.sum]
  maxPartitions := some 4
  maxPerPartition := some 1
  minSum := some (-1)
  maxSum := some 7

/-- Three queries on rows (user, day, amount): two with public days 0, 1, 2, one with public amounts rounded by day. -/
def exampleQueries : List (Query (ℕ × ℕ × ℚ) ℕ) :=
  [⟨exampleMean, [0, 1, 2], fun r => r.2.1, fun r => r.2.2⟩,
   ⟨exampleVariance, [0, 1, 2], fun r => r.2.1, fun r => r.2.2⟩,
   ⟨exampleSum, [5], fun _ => 5, fun r => r.2.2⟩]

theorem example_supported : ∀ q ∈ exampleQueries, Supported q.params := by
  intro q hq
  simp only [exampleQueries, List.mem_cons, List.not_mem_nil, or_false] at hq
  rcases hq with rfl | rfl | rfl
  · refine ⟨?_, rfl, by simp [exampleMean], by simp [exampleMean], rfl, by simp [exampleMean], by simp [exampleMean], ?_,
      by simp [exampleMean]⟩
    · simp [Params.BoundsValid, exampleMean]
    · intro _ _; exact ⟨0, 5, rfl, rfl, by norm_num⟩
  · refine ⟨?_, rfl, by simp [exampleVariance], by simp [exampleVariance], rfl, by simp [exampleVariance],
      by simp [exampleVariance], by simp [exampleVariance], ?_⟩
    · simp [Params.BoundsValid, exampleVariance]
    · intro _
      refine ⟨⟨1, 3, rfl, rfl, by norm_num, ?_⟩, rfl⟩
      left; norm_num
  · refine ⟨?_, rfl, by simp [exampleSum], by simp [exampleSum], rfl, by simp [exampleSum], ?_, by simp [exampleSum],
      by simp [exampleSum]⟩
    · simp [Params.BoundsValid, exampleSum]
    · intro _ _ _
      right
      exact ⟨-1, 7, rfl, rfl, by norm_num, by norm_num, rfl, rfl, rfl⟩

/-- Local execution with a given generator. -/
def exampleEnv (rng : Rng) : Env ℕ := ⟨localBackend rng, fun merge => localCombine merge⟩

theorem exampleEnv_lawful (rng : Rng) : (exampleEnv rng).Lawful :=
  ⟨C39_local_backend_lawful rng, localBackend_keyLocal rng, fun merge => localCombine_lawful merge⟩

/-- The hypotheses of C60 hold for this pipeline with total epsilon 1 and announced weights, on every dataset, for every user,
with a fair choice between two generators. -/
example (fmt : ℚ → String) (sigma : ℝ → ℝ → ℝ → ℝ) (data : List (ℕ × ℕ × ℚ)) (u : ℕ) :
    ∃ s0 ps ops, Budget.init 1 0 none (some [1, 2, 1]) = .ok s0 ∧ plan fmt [] exampleQueries = .ok (ps, ops) ∧
      let s := specOf (Budget.step (Budget.run s0 ops).1 .compute).1
      let S := (released sigma exampleQueries ps).toFinset
      let env : Bool → ℕ → Env ℕ := fun b _ => exampleEnv (if b then firstRng else lastRng)
      let μ : Measure Bool := (1 / 2 : ENNReal) • Measure.count
      ∃ L L' : Bool → List (Noisy ℕ),
        (∀ ω, evalAll sigma s (env ω) Prod.fst data 0 exampleQueries ps = .ok (L ω) ∧
          evalAll sigma s (env ω) Prod.fst (removeId Prod.fst u data) 0 exampleQueries ps = .ok (L' ω)) ∧
        ∀ A : Set (S → ℝ),
          ∫⁻ ω, law S (L ω) A ∂μ ≤ ENNReal.ofReal (Real.exp 1) * ∫⁻ ω, law S (L' ω) A ∂μ := by
  obtain ⟨s0, h0⟩ : ∃ s0, Budget.init 1 0 none (some [1, 2, 1]) = .ok s0 := ⟨_, rfl⟩
  obtain ⟨ps, ops, hp, hc⟩ := C60_supported_pipeline_runs fmt exampleQueries example_supported h0
    ⟨by simp, by intro l hl; cases hl; rfl⟩
  refine ⟨s0, ps, ops, h0, hp, ?_⟩
  obtain ⟨L, L', h1, h2⟩ := C60_pipeline_is_differentially_private fmt sigma h0 exampleQueries example_supported hp hc
    ((1 / 2 : ENNReal) • Measure.count) (fun (b : Bool) _ => exampleEnv (if b then firstRng else lastRng))
    (fun b j => exampleEnv_lawful _) Prod.fst data u (by
      intro q hq
      simp only [exampleQueries, List.mem_cons, List.not_mem_nil, or_false] at hq
      rcases hq with rfl | rfl | rfl <;>
        exact ⟨fun h => by simp [exampleMean, exampleVariance, exampleSum] at h,
          fun h => by simp [exampleMean, exampleVariance, exampleSum] at h⟩) (by
      intro q hq h
      simp only [exampleQueries, List.mem_cons, List.not_mem_nil, or_false] at hq
      rcases hq with rfl | rfl | rfl <;> simp [exampleMean, exampleVariance, exampleSum] at h)
  refine ⟨L, L', fun ω => ⟨(h1 ω).1, (h1 ω).2.1⟩, fun A => ?_⟩
  have := (h2 A).1
  simpa using this

/-- The combiners of the pipeline with the positions of their budgets: five budgets are requested. -/
example (fmt : ℚ → String) : ∃ ops, plan fmt [] exampleQueries =
    .ok ([[.mean 0 1 ["mean", "count"]], [.variance 2 ["variance"], .privacyIdCount 3], [.sum 4]], ops) := by
  exact ⟨_, rfl⟩

end PDP.EndToEnd
