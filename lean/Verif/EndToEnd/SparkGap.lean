import Verif.EndToEnd.SparkSum
import Verif.EndToEnd.Thresholding
import Mathlib.Probability.ProductMeasure
import Mathlib.MeasureTheory.Integral.Lebesgue.Markov

/-!
# Sampling on Spark is not private if blocks hold rows of several users (C77)
-/

set_option linter.unusedVariables false

namespace PDP.EndToEnd

open PDP PDP.Engine PDP.Backend MeasureTheory
open PDP.Engine.Mechanism (Additive laplaceDensity)
open PDP.Engine.AddNoise (specOf)
open PDP.Budget (State Op MechType)

/-! ### Specification -/

/-- Fair random choices: `random.sample(x + y, 1)` for lists `x`, `y` with one element takes either with probability 1/2,
independently for all users and steps of the reduction. -/
structure FairChoices {Ω : Type} [MeasurableSpace Ω] (μ : Measure Ω) (rng : Ω → SparkRng) : Prop where
  measurable : ∀ (key : ℕ × Unit) (path : List Bool), MeasurableSet {ω | (rng ω).pick keepStage key path 2 1 = [1]}
  fair : ∀ (F : Finset ((ℕ × Unit) × List Bool)) (b : (ℕ × Unit) × List Bool → Bool),
    μ {ω | ∀ x ∈ F, (rng ω).pick keepStage x.1 x.2 2 1 = [if b x then 1 else 0]} = (1 / 2) ^ F.card

/-! ### Tails -/

section Tails

variable {Ω S : Type} [MeasurableSpace Ω] {μ : Measure Ω} [Fintype S] [MeasurableSpace S] [MeasurableSingletonClass S]

theorem mgf {m : ℕ} (φ : Ω → Fin m → S) (hφ : Measurable φ) (q : ENNReal) (h : ∀ b, μ {ω | φ ω = b} = q ^ m) (a : S → ℕ)
    (y : ENNReal) : ∫⁻ ω, y ^ (∑ i, a (φ ω i)) ∂μ = (∑ s, q * y ^ a s) ^ m := by
  have h1 : ∫⁻ ω, y ^ (∑ i, a (φ ω i)) ∂μ = ∫⁻ b, y ^ (∑ i, a (b i)) ∂(μ.map φ) :=
    (lintegral_map (f := fun b : Fin m → S => y ^ (∑ i, a (b i))) (measurable_of_countable _) hφ).symm
  rw [h1, lintegral_fintype, Fintype.sum_pow]
  apply Finset.sum_congr rfl
  intro b _
  rw [Measure.map_apply hφ (measurableSet_singleton b)]
  have : φ ⁻¹' {b} = {ω | φ ω = b} := rfl
  rw [this, h b, Finset.prod_mul_distrib, Finset.prod_const, Finset.card_univ, Fintype.card_fin, mul_comm,
    Finset.prod_pow_eq_pow_sum]

theorem tail {m : ℕ} (φ : Ω → Fin m → S) (hφ : Measurable φ) (q : ENNReal) (h : ∀ b, μ {ω | φ ω = b} = q ^ m) (a : S → ℕ)
    {y : ENNReal} (hy : 1 ≤ y) (hy' : y ≠ ⊤) (t : ℕ) :
    MeasurableSet {ω | t ≤ ∑ i, a (φ ω i)} ∧ μ {ω | t ≤ ∑ i, a (φ ω i)} ≤ (∑ s, q * y ^ a s) ^ m / y ^ t := by
  have hm : Measurable fun ω => ∑ i, a (φ ω i) :=
    (measurable_of_countable fun b : Fin m → S => ∑ i, a (b i)).comp hφ
  refine ⟨measurableSet_le measurable_const hm, ?_⟩
  rw [← mgf φ hφ q h a y]
  have hy0 : y ≠ 0 := fun e => by rw [e] at hy; simp at hy
  refine le_trans (measure_mono ?_) (meas_ge_le_lintegral_div (f := fun ω => y ^ (∑ i, a (φ ω i)))
    ((measurable_of_countable fun n : ℕ => y ^ n).comp hm).aemeasurable (pow_ne_zero t hy0) (ENNReal.pow_ne_top hy'))
  intro ω hω
  exact pow_le_pow_right₀ hy hω

end Tails

/-- Lower tail of Laplace noise. -/
theorem laplace_lower_tail {b t : ℝ} (hb : 0 < b) (ht : 0 ≤ t) (c : ℝ) (x : ℝ) :
    noisy (.laplace b x) c {v | v ≤ c - t} = ENNReal.ofReal (Real.exp (-t / b) / 2) := by
  rw [← laplace_tail hb ht c x, noisy_laplace, withDensity_apply _ (s := {v | v ≤ c - t}) measurableSet_Iic,
    withDensity_apply _ (s := {v | c + t ≤ v}) measurableSet_Ici]
  have h := (Measure.measurePreserving_sub_left volume (2 * c)).setLIntegral_comp_preimage (s := {v : ℝ | c + t ≤ v}) measurableSet_Ici
    (f := fun v => ENNReal.ofReal (laplaceDensity b (v - c)))
    ((laplace_measurable b).comp (measurable_sub_const c)).ennreal_ofReal
  rw [← h]
  have h1 : (fun v : ℝ => 2 * c - v) ⁻¹' {v | c + t ≤ v} = {v | v ≤ c - t} := by
    ext v
    simp only [Set.mem_preimage, Set.mem_setOf_eq]
    constructor <;> intro h <;> linarith
  rw [h1]
  congr 1
  funext v
  congr 1
  unfold laplaceDensity
  rw [show 2 * c - v - c = -(v - c) by ring, abs_neg]

theorem tail_high {b : ℝ} (hb : 0 < b) (y : ℝ) {x : ℚ} {j : ℕ} (h : x ≤ 5 * j) :
    noisy (.laplace b y) x {v | 6 * (j : ℝ) ≤ v} ≤ ENNReal.ofReal (Real.exp (-1 / b) ^ j) := by
  have hx : (x : ℝ) ≤ 5 * j := by exact_mod_cast h
  have h1 := laplace_tail hb (t := 6 * j - x) (by nlinarith [Nat.cast_nonneg (α := ℝ) j]) (x : ℝ) y
  rw [show (x : ℝ) + (6 * j - x) = 6 * j by ring] at h1
  rw [h1]
  apply ENNReal.ofReal_le_ofReal
  rw [← Real.exp_nat_mul]
  have h2 : Real.exp (-(6 * j - x) / b) ≤ Real.exp (j * (-1 / b)) := by
    apply Real.exp_le_exp.mpr
    rw [← mul_div_assoc]
    apply div_le_div_of_nonneg_right _ hb.le
    linarith
  have := Real.exp_nonneg (-(6 * j - x) / b)
  linarith

theorem tail_low {b : ℝ} (hb : 0 < b) (y : ℝ) {x : ℚ} {j : ℕ} (h : 7 * j ≤ x) :
    1 ≤ noisy (.laplace b y) x {v | 6 * (j : ℝ) ≤ v} + ENNReal.ofReal (Real.exp (-1 / b) ^ j) := by
  have hx : 7 * (j : ℝ) ≤ x := by exact_mod_cast h
  have := noisy_laplace_prob hb y (x : ℝ)
  have h1 := laplace_lower_tail hb (t := x - 6 * j) (by nlinarith [Nat.cast_nonneg (α := ℝ) j]) (x : ℝ) y
  rw [show (x : ℝ) - (x - 6 * j) = 6 * j by ring] at h1
  have h2 : noisy (.laplace b y) (x : ℝ) {v | v ≤ 6 * (j : ℝ)} ≤ ENNReal.ofReal (Real.exp (-1 / b) ^ j) := by
    rw [h1]
    apply ENNReal.ofReal_le_ofReal
    rw [← Real.exp_nat_mul]
    have h2 : Real.exp (-(x - 6 * j) / b) ≤ Real.exp (j * (-1 / b)) := by
      apply Real.exp_le_exp.mpr
      rw [← mul_div_assoc]
      apply div_le_div_of_nonneg_right _ hb.le
      linarith
    have := Real.exp_nonneg (-(x - 6 * j) / b)
    linarith
  refine le_trans ?_ (add_le_add le_rfl h2)
  rw [← measure_univ (μ := noisy (.laplace b y) (x : ℝ))]
  refine le_trans (measure_mono ?_) (measure_union_le _ _)
  intro v _
  rcases le_total (6 * (j : ℝ)) v with h | h
  · exact Or.inl h
  · exact Or.inr h

/-! ### The fair choices -/

section Choices

variable {Ω : Type} [MeasurableSpace Ω] {μ : Measure Ω} {rng : Ω → SparkRng}

/-- Whether the second list was taken. -/
def second (rng : SparkRng) (i : ℕ) (path : List Bool) : Bool := decide (TakesSecond (rng.pick keepStage (i + 1, ())) path)

theorem second_measurable (h : FairChoices μ rng) (i : ℕ) (path : List Bool) : Measurable fun ω => second (rng ω) i path := by
  apply measurable_to_bool
  have : (fun ω => second (rng ω) i path) ⁻¹' {true} = {ω | (rng ω).pick keepStage (i + 1, ()) path 2 1 = [1]} := by
    ext ω
    exact decide_eq_true_iff
  rw [this]
  exact h.measurable _ _

theorem second_eq (rng : SparkRng) (i : ℕ) (path : List Bool) (b : Bool) :
    second rng i path = b ↔ rng.pick keepStage (i + 1, ()) path 2 1 = [if b then 1 else 0] := by
  unfold second TakesSecond
  rcases pick_two rng keepStage ((i + 1, ()) : ℕ × Unit) path with h | h <;> cases b <;> simp [h]

theorem choices (h : FairChoices μ rng) {ι : Type} [Fintype ι] [DecidableEq ι] (key : ι → (ℕ × Unit) × List Bool)
    (hk : Function.Injective key) (b : ι → Bool) :
    μ {ω | ∀ i, (rng ω).pick keepStage (key i).1 (key i).2 2 1 = [if b i then 1 else 0]} = (1 / 2) ^ Fintype.card ι := by
  have := h.fair (Finset.univ.image key) (Function.extend key b fun _ => false)
  rw [Finset.card_image_of_injective _ hk, Finset.card_univ] at this
  rw [← this]
  congr 1
  ext ω
  constructor
  · intro h x hx
    obtain ⟨i, -, rfl⟩ := Finset.mem_image.mp hx
    rw [hk.extend_apply]
    exact h i
  · intro h i
    have := h (key i) (Finset.mem_image_of_mem key (Finset.mem_univ i))
    rwa [hk.extend_apply] at this

theorem one_choice (h : FairChoices μ rng) (m : ℕ) (b : Fin m → Bool) :
    μ {ω | (fun i : Fin m => second (rng ω) i []) = b} = (1 / 2) ^ m := by
  have := choices h (fun i : Fin m => (((i : ℕ) + 1, ()), [])) (by
    intro i i' hi
    simpa [Fin.ext_iff] using hi) b
  rw [Fintype.card_fin] at this
  rw [← this]
  congr 1
  ext ω
  simp only [Set.mem_ofPred_eq, funext_iff, second_eq]

theorem two_choices (h : FairChoices μ rng) (m : ℕ) (b : Fin m → Bool × Bool) :
    μ {ω | (fun i : Fin m => (second (rng ω) i [], second (rng ω) i [true])) = b} = (1 / 4) ^ m := by
  have := choices h (fun i : Fin m × Bool => (((i.1 : ℕ) + 1, ()), if i.2 then [true] else [])) (by
    rintro ⟨i, c⟩ ⟨i', c'⟩ hi
    simp only [Prod.mk.injEq, add_left_inj, and_true] at hi
    obtain ⟨h1, h2⟩ := hi
    refine Prod.ext (Fin.ext h1) ?_
    cases c <;> cases c' <;> simp_all) fun i => if i.2 then (b i.1).2 else (b i.1).1
  rw [Fintype.card_prod, Fintype.card_fin, Fintype.card_bool] at this
  have e : ((1 : ENNReal) / 4) ^ m = (1 / 2) ^ (m * 2) := by
    rw [mul_comm, pow_mul]
    congr 1
    rw [one_div, one_div, ← ENNReal.inv_pow]
    norm_num
  rw [e, ← this]
  congr 1
  ext ω
  simp only [Set.mem_ofPred_eq, funext_iff, Prod.ext_iff, second_eq]
  constructor
  · rintro h ⟨i, c⟩
    cases c
    · exact (h i).1
    · exact (h i).2
  · intro h i
    exact ⟨h (i, false), h (i, true)⟩

/-- Without the additional row the sum is small. -/
theorem crowd_tail (h : FairChoices μ rng) (j : ℕ) :
    let X := fun ω => ∑ i : Fin (16 * j), (if second (rng ω) i [] && second (rng ω) i [true] then 1 else 0)
    MeasurableSet {ω | 5 * j ≤ X ω} ∧ μ {ω | 5 * j ≤ X ω} ≤ ENNReal.ofReal (((13 / 12) ^ 16 / (4 / 3) ^ 5) ^ j) := by
  intro X
  obtain ⟨h1, h2⟩ := tail (fun ω (i : Fin (16 * j)) => (second (rng ω) i [], second (rng ω) i [true]))
    (measurable_pi_lambda _ fun i => (second_measurable h _ _).prodMk (second_measurable h _ _)) (1 / 4)
    (two_choices h (16 * j)) (fun s => if s.1 && s.2 then 1 else 0) (y := ENNReal.ofReal (4 / 3))
    (by rw [ENNReal.one_le_ofReal]; norm_num) ENNReal.ofReal_ne_top (5 * j)
  refine ⟨h1, h2.trans (le_of_eq ?_)⟩
  have e : ∑ s : Bool × Bool, (1 / 4 : ENNReal) * ENNReal.ofReal (4 / 3) ^ (if s.1 && s.2 then 1 else 0)
      = ENNReal.ofReal (13 / 12) := by
    have q : (1 / 4 : ENNReal) = ENNReal.ofReal (1 / 4) := by
      rw [ENNReal.ofReal_div_of_pos (by norm_num)]; simp
    rw [Fintype.sum_prod_type]
    simp only [Fintype.sum_bool, Bool.and_true, Bool.and_false, Bool.false_eq_true, if_true, if_false, pow_one, pow_zero,
      mul_one, q]
    rw [← ENNReal.ofReal_mul (by norm_num), ← ENNReal.ofReal_add (by norm_num) (by norm_num),
      ← ENNReal.ofReal_add (by norm_num) (by norm_num), ← ENNReal.ofReal_add (by norm_num) (by norm_num)]
    norm_num
  rw [e, ← ENNReal.ofReal_pow (by norm_num), ← ENNReal.ofReal_pow (by norm_num), ← ENNReal.ofReal_div_of_pos (by positivity),
    pow_mul, pow_mul, ← div_pow]

/-- With the additional row the sum is large. -/
theorem crowdAndOne_tail (h : FairChoices μ rng) (j : ℕ) :
    let X := fun ω => ∑ i : Fin (16 * j), (if second (rng ω) i [] then 1 else 0)
    MeasurableSet {ω | X ω ≤ 7 * j} ∧ μ {ω | X ω ≤ 7 * j} ≤ ENNReal.ofReal (((8 / 7) ^ 16 / (9 / 7) ^ 9) ^ j) := by
  intro X
  obtain ⟨h1, h2⟩ := tail (fun ω (i : Fin (16 * j)) => second (rng ω) i [])
    (measurable_pi_lambda _ fun i => second_measurable h _ _) (1 / 2)
    (one_choice h (16 * j)) (fun s => if s then 0 else 1) (y := ENNReal.ofReal (9 / 7))
    (by rw [ENNReal.one_le_ofReal]; norm_num) ENNReal.ofReal_ne_top (9 * j)
  have hset : {ω | X ω ≤ 7 * j} = {ω | 9 * j ≤ ∑ i : Fin (16 * j), (if second (rng ω) i [] then 0 else 1)} := by
    ext ω
    have : X ω + ∑ i : Fin (16 * j), (if second (rng ω) i [] then 0 else 1) = 16 * j := by
      rw [← Finset.sum_add_distrib]
      have : ∀ i : Fin (16 * j), ((if second (rng ω) i [] then 1 else 0) + (if second (rng ω) i [] then 0 else 1)) = 1 := by
        intro i; split <;> rfl
      simp [this]
    simp only [Set.mem_ofPred_eq]
    omega
  rw [hset]
  refine ⟨h1, h2.trans (le_of_eq ?_)⟩
  have e : ∑ s : Bool, (1 / 2 : ENNReal) * ENNReal.ofReal (9 / 7) ^ (if s then 0 else 1) = ENNReal.ofReal (8 / 7) := by
    have q : (1 / 2 : ENNReal) = ENNReal.ofReal (1 / 2) := by
      rw [ENNReal.ofReal_div_of_pos (by norm_num)]; simp
    simp only [Fintype.sum_bool, Bool.false_eq_true, if_true, if_false, pow_one, pow_zero, mul_one, q]
    rw [← ENNReal.ofReal_mul (by norm_num), ← ENNReal.ofReal_add (by norm_num) (by norm_num)]
    norm_num
  rw [e, ← ENNReal.ofReal_pow (by norm_num), ← ENNReal.ofReal_pow (by norm_num), ← ENNReal.ofReal_div_of_pos (by positivity),
    pow_mul, pow_mul, ← div_pow]

end Choices

/-! ### The privacy gap -/

theorem law_one {b y : ℝ} (hb : 0 < b) (x : ℚ) (S : Finset (Unit × ℕ × ℕ)) (hS : S = {((), 0, 0)}) (h0 : ((), 0, 0) ∈ S) (t : ℝ) :
    IsProbabilityMeasure (law S [⟨(), 0, 0, x, .laplace b y⟩]) ∧
    law S [⟨(), 0, 0, x, .laplace b y⟩] {f | t ≤ f ⟨((), 0, 0), h0⟩} = noisy (.laplace b y) x {v | t ≤ v} := by
  have hl : ∀ l : S, lawAt [⟨(), 0, 0, x, .laplace b y⟩] l = noisy (.laplace b y) x := by
    rintro ⟨l, hl⟩
    have : l = ((), 0, 0) := by rw [hS] at hl; exact Finset.mem_singleton.mp hl
    subst this
    rfl
  have hp : ∀ l : S, IsProbabilityMeasure (lawAt [⟨(), 0, 0, x, .laplace b y⟩] (l : Unit × ℕ × ℕ)) := fun l => by
    rw [hl l]; exact noisy_laplace_prob hb y _
  refine ⟨by unfold law; infer_instance, ?_⟩
  rw [← hl ⟨_, h0⟩]
  exact (measurePreserving_eval (fun l : S => lawAt [⟨(), 0, 0, x, .laplace b y⟩] (l : Unit × ℕ × ℕ)) ⟨_, h0⟩).measure_preimage
    (measurableSet_Ici (a := t)).nullMeasurableSet

theorem removeId_crowdAndOne (c m : ℕ) : removeId Prod.fst 0 (crowdAndOne c m) = crowd c m := by
  rw [removeId, crowdAndOne, List.filter_cons_of_neg (by simp), List.filter_eq_self]
  intro r hr
  obtain ⟨i, -, hr⟩ := List.mem_flatMap.mp hr
  rw [mem_userRows hr]
  simp

/-- **C77** (Gap).  On Spark with rows placed in blocks of `c ≥ 2` consecutive rows, one SUM with Laplace noise, at most one
value of each user and a public partition is not differentially private with any `ε'` and `δ' < 1`, whatever the budget of the
accountant: on the dataset of `16 j` users with `2 c` rows and one user with one row, an event has a probability of more
than `exp ε'` times the probability without that row, plus `δ'`. -/
theorem C77_spark_sampling_breaks_privacy (fmt : ℚ → String) (sigma : ℝ → ℝ → ℝ → ℝ) {e d : ℚ} {num ws s0}
    (h0 : Budget.init e d num ws = .ok s0) {ps ops} (hp : plan fmt [] [lastQuery] = .ok (ps, ops))
    (hcomp : (Budget.step (Budget.run s0 ops).1 .compute).2 = .unit) {c : ℕ} (hc : 2 ≤ c) (ε' δ' : ℝ) (hδ : δ' < 1) :
    ∃ m, ((crowdAndOne c m).filter fun r => r.1 = 0).length = 1 ∧
      ∀ {Ω : Type} [MeasurableSpace Ω] (μ : Measure Ω) [IsProbabilityMeasure μ] (rng : Ω → SparkRng) (other : Ω → Rng),
      FairChoices μ rng →
      let s := specOf (Budget.step (Budget.run s0 ops).1 .compute).1
      let S := (released sigma [lastQuery] ps).toFinset
      ∃ L L' : Ω → List (Noisy Unit),
        (∀ ω, evalAll sigma s (fun _ => sparkEnv (rng ω) (other ω) c) Prod.fst (crowdAndOne c m) 0 [lastQuery] ps = .ok (L ω) ∧
          evalAll sigma s (fun _ => sparkEnv (rng ω) (other ω) c) Prod.fst (removeId Prod.fst 0 (crowdAndOne c m)) 0 [lastQuery] ps
            = .ok (L' ω) ∧
          IsProbabilityMeasure (law S (L ω)) ∧ IsProbabilityMeasure (law S (L' ω))) ∧
        ∃ A : Set (S → ℝ), MeasurableSet A ∧
          ENNReal.ofReal (Real.exp ε') * ∫⁻ ω, law S (L' ω) A ∂μ + ENNReal.ofReal δ' < ∫⁻ ω, law S (L ω) A ∂μ := by
  have hsup : ∀ q ∈ [lastQuery], Supported q.params := by
    intro q hq
    rw [List.mem_singleton] at hq
    subst hq
    exact lastParams_supported
  obtain ⟨ε, δ, hb, -⟩ := budgets_after hsup hp h0 hcomp
  obtain ⟨ops', hp'⟩ := plan_last fmt
  rw [hp'] at hp
  obtain ⟨rfl, rfl⟩ : [[Part.sum 0]] = ps ∧ ops' = ops := by
    have := Except.ok.inj hp
    exact ⟨congrArg Prod.fst this, congrArg Prod.snd this⟩
  obtain ⟨hε, hs⟩ := hb 0 (by simp [Part.specs])
  set s := specOf (Budget.step (Budget.run s0 ops').1 .compute).1 with hsdef
  -- the scale of the noise
  have hscale : ∃ b y : ℝ, 0 < b ∧ ∀ (rng : SparkRng) (other : Rng) (data : List (ℕ × ℚ)),
      evalAll sigma s (fun _ => sparkEnv rng other c) Prod.fst data 0 [lastQuery] [[.sum 0]]
        = .ok [⟨(), 0, 0, ((sparkSample rng c keepStage (data.map fun r => ((r.1, ()), r.2)) 1).map
            fun e => (e.2.map (clip 0 1)).sum).sum, .laplace b y⟩] := by
    obtain ⟨b, y, h1, h2⟩ := eval_last sigma s hε hs
    exact ⟨b, y, h1, fun rng other data => h2 (sparkEnv rng other c) (C77_spark_backend_lawful rng other c)
      (fun merge => C77_spark_combine_lawful c merge) data⟩
  obtain ⟨b, y, hbpos, heval⟩ := hscale
  -- the number of users
  set D := max δ' 0 with hD
  have hD1 : D < 1 := max_lt hδ one_pos
  set E := Real.exp ε' with hE
  have hEpos : 0 < E := Real.exp_pos _
  set η := (1 - D) / (4 * (1 + E)) with hη
  have hηpos : 0 < η := div_pos (by linarith) (by linarith)
  have t1 := tendsto_pow_atTop_nhds_zero_of_lt_one (r := ((13 : ℝ) / 12) ^ 16 / (4 / 3) ^ 5) (by positivity) (by norm_num)
  have t2 := tendsto_pow_atTop_nhds_zero_of_lt_one (r := ((8 : ℝ) / 7) ^ 16 / (9 / 7) ^ 9) (by positivity) (by norm_num)
  have t3 := tendsto_pow_atTop_nhds_zero_of_lt_one (r := Real.exp (-1 / b)) (Real.exp_nonneg _) (by
    rw [Real.exp_lt_one_iff]
    exact div_neg_of_neg_of_pos (by norm_num) hbpos)
  obtain ⟨j, ⟨j1, j2⟩, j3⟩ := (((t1.eventually (gt_mem_nhds hηpos)).and (t2.eventually (gt_mem_nhds hηpos))).and
    (t3.eventually (gt_mem_nhds hηpos))).exists
  refine ⟨16 * j, ?_, ?_⟩
  · have := removeId_crowdAndOne c (16 * j)
    rw [crowdAndOne, List.filter_cons_of_pos (by simp), List.length_cons, List.length_eq_zero_iff.mpr]
    rw [List.filter_eq_nil_iff]
    intro r hr
    obtain ⟨i, -, hr⟩ := List.mem_flatMap.mp hr
    rw [mem_userRows hr]
    simp
  intro Ω _ μ _ rng other hfair
  have hS : (released sigma [lastQuery] [[.sum 0]]).toFinset = {((), 0, 0)} := rfl
  intro s' S
  have hl0 : ((), 0, 0) ∈ S := by show _ ∈ (released sigma [lastQuery] [[.sum 0]]).toFinset; rw [hS]; simp
  let X := fun ω => ∑ i : Fin (16 * j), (if second (rng ω) i [] then 1 else 0)
  let X' := fun ω => ∑ i : Fin (16 * j), (if second (rng ω) i [] && second (rng ω) i [true] then 1 else 0)
  obtain ⟨m1, m2⟩ := crowdAndOne_tail hfair j
  obtain ⟨m1', m2'⟩ := crowd_tail hfair j
  have hX : ∀ ω, ((sparkSample (rng ω) c keepStage ((crowdAndOne c (16 * j)).map fun r => ((r.1, ()), r.2)) 1).map
      fun e => (e.2.map (clip 0 1)).sum).sum = ((X ω : ℕ) : ℚ) := by
    intro ω
    rw [sum_crowdAndOne (rng ω) hc]
    simp only [X, second, decide_eq_true_eq]
  have hX' : ∀ ω, ((sparkSample (rng ω) c keepStage ((crowd c (16 * j)).map fun r => ((r.1, ()), r.2)) 1).map
      fun e => (e.2.map (clip 0 1)).sum).sum = ((X' ω : ℕ) : ℚ) := by
    intro ω
    rw [sum_crowd (rng ω) hc]
    simp only [X', second, Bool.and_eq_true, decide_eq_true_eq]
  refine ⟨fun ω => [⟨(), 0, 0, (X ω : ℕ), .laplace b y⟩], fun ω => [⟨(), 0, 0, (X' ω : ℕ), .laplace b y⟩], fun ω => ⟨?_, ?_, ?_, ?_⟩, ?_⟩
  · rw [heval, hX]
  · rw [removeId_crowdAndOne, heval, hX']
  · exact (law_one hbpos _ S hS hl0 0).1
  · exact (law_one hbpos _ S hS hl0 0).1
  refine ⟨{f | 6 * (j : ℝ) ≤ f ⟨((), 0, 0), hl0⟩}, measurableSet_le measurable_const (measurable_pi_apply _), ?_⟩
  simp only [(law_one hbpos _ S hS hl0 _).2]
  -- without the row
  have p' : ∫⁻ ω, noisy (.laplace b y) (((X' ω : ℕ) : ℚ) : ℝ) {v | 6 * (j : ℝ) ≤ v} ∂μ ≤ ENNReal.ofReal (2 * η) := by
    have h1 : ∀ ω, noisy (.laplace b y) (((X' ω : ℕ) : ℚ) : ℝ) {v | 6 * (j : ℝ) ≤ v}
        ≤ ({ω | 5 * j ≤ X' ω}.indicator 1 ω : ENNReal) + ENNReal.ofReal η := by
      intro ω
      by_cases h : 5 * j ≤ X' ω
      · rw [Set.indicator_of_mem (show ω ∈ {ω | 5 * j ≤ X' ω} from h)]
        have := noisy_laplace_prob hbpos y (((X' ω : ℕ) : ℚ) : ℝ)
        exact prob_le_one.trans (le_add_right le_rfl)
      · refine le_trans ?_ (le_add_left le_rfl)
        refine (tail_high hbpos y ?_).trans (ENNReal.ofReal_le_ofReal j3.le)
        push Not at h
        exact_mod_cast h.le
    refine (lintegral_mono h1).trans ?_
    rw [lintegral_add_right _ measurable_const, lintegral_indicator_one m1', lintegral_const, measure_univ, mul_one, two_mul,
      ENNReal.ofReal_add hηpos.le hηpos.le]
    exact add_le_add (m2'.trans (ENNReal.ofReal_le_ofReal j1.le)) le_rfl
  -- with the row
  have p : 1 ≤ ∫⁻ ω, noisy (.laplace b y) (((X ω : ℕ) : ℚ) : ℝ) {v | 6 * (j : ℝ) ≤ v} ∂μ + ENNReal.ofReal (2 * η) := by
    have h1 : ∀ ω, 1 ≤ noisy (.laplace b y) (((X ω : ℕ) : ℚ) : ℝ) {v | 6 * (j : ℝ) ≤ v}
        + (({ω | X ω ≤ 7 * j}.indicator 1 ω : ENNReal) + ENNReal.ofReal η) := by
      intro ω
      by_cases h : X ω ≤ 7 * j
      · rw [Set.indicator_of_mem (show ω ∈ {ω | X ω ≤ 7 * j} from h)]
        exact le_add_left (le_add_right le_rfl)
      · refine (tail_low hbpos y (x := ((X ω : ℕ) : ℚ)) (j := j) ?_).trans (add_le_add le_rfl ?_)
        · push Not at h
          exact_mod_cast h.le
        · exact le_add_left (ENNReal.ofReal_le_ofReal j3.le)
    have h2 := lintegral_mono (μ := μ) h1
    have hm : Measurable fun ω => ({ω | X ω ≤ 7 * j}.indicator 1 ω : ENNReal) + ENNReal.ofReal η :=
      (measurable_one.indicator m1).add_const _
    rw [lintegral_const, measure_univ, mul_one, lintegral_add_right _ hm,
      lintegral_add_right _ measurable_const, lintegral_indicator_one m1, lintegral_const, measure_univ, mul_one] at h2
    refine h2.trans (add_le_add le_rfl ?_)
    rw [two_mul, ENNReal.ofReal_add hηpos.le hηpos.le]
    exact add_le_add (m2.trans (ENNReal.ofReal_le_ofReal j2.le)) le_rfl
  by_contra hcon
  push Not at hcon
  have h3 : (1 : ENNReal) ≤ ENNReal.ofReal (E * (2 * η) + D + 2 * η) := by
    refine p.trans ?_
    rw [ENNReal.ofReal_add (by positivity) (by positivity), ENNReal.ofReal_add (by positivity) (le_max_right _ _),
      ENNReal.ofReal_mul hEpos.le]
    refine add_le_add (hcon.trans (add_le_add (mul_le_mul_right p' _) (ENNReal.ofReal_le_ofReal (le_max_left _ _)))) le_rfl
  rw [ENNReal.one_le_ofReal] at h3
  have h4 : E * (2 * η) + 2 * η = (1 - D) / 2 := by
    rw [hη]; field_simp; ring
  linarith

end PDP.EndToEnd
