import Verif.EndToEnd.CustomExample
import Verif.EndToEnd.SparkGap
import Verif.Engine.Vector
import Mathlib.Algebra.Order.Chebyshev
import Mathlib.Data.List.GetD
import Mathlib.Probability.ProductMeasure

/-! # VECTOR_SUM in a pipeline: model (C79)

`VectorSumCombiner` makes one request and releases a vector of independently noised coordinates.  It is given here as a
`CustomClass`, so that calls of `aggregate` with the metric VECTOR_SUM can stand in the pipelines of C74. -/

set_option linter.unusedSectionVars false

namespace PDP.EndToEnd

open PDP PDP.Engine PDP.Approx MeasureTheory
open PDP.Engine.Mechanism (Additive)
open PDP.Budget (MechType)

variable {R P K V : Type} [DecidableEq P] [DecidableEq K]

/-! ### Model -/

/-- The mechanism with which `_add_random_noise` (`dp_computations.py:154-183`) noises one coordinate, for the parameters of
`additive_vector_noise_params` (`combiners.py:175-186`): budget divided by `vector_size`, sensitivities from the bounds on partitions and
on contributions per partition.  Simplified: missing bounds count as 0 (in the code they raise `TypeError`). -/
noncomputable def vectorMechanism (sigma : ℝ → ℝ → ℝ → ℝ) (p : Params) (b : ℝ × ℝ) : Additive :=
  let n := p.vectorSize.getD 0
  let l0 := p.maxPartitions.getD 0
  let linf := p.maxPerPartition.getD 0
  match p.noiseKind with
  | .laplace => .laplace (l1Sens l0 linf / (b.1 / n)) (l1Sens l0 linf)
  | .gaussian => .gaussian (sigma (b.1 / n) (b.2 / n) (l2Sens l0 linf)) (l2Sens l0 linf)

/-- An array of `n` numbers as a sequence. -/
def padded (n : ℕ) (x : Fin n → ℝ) : ℕ → ℝ := fun j => if h : j < n then x ⟨j, h⟩ else 0

/-- `add_noise_vector` (`dp_computations.py:211-229`): clipping, then independent noise on the coordinates.  The norm L0, which raises
`NotImplementedError`, gives a constant here. -/
noncomputable def vectorLaw (m : Additive) (n : ℕ) (M : ℝ) (kind : NormKind) (a : ℕ → ℚ) : Measure (ℕ → ℝ) :=
  match clipVector (List.ofFn fun j : Fin n => ((a j : ℚ) : ℝ)) M kind with
  | .ok w => (Measure.pi fun j : Fin n => noisy m (w.getD j 0)).map (padded n)
  | .error _ => Measure.dirac 0

/-- `VectorSumCombiner` (`combiners.py:800-846`, with the budget requested at `combiners.py:898-903`).  `vec` reads the array of a
value.  Arrays are sequences whose first `vector_size` elements count.  Simplified: the sum over no values, `None` in the code, is
the zero vector (it is not reached with private partitions, and with public ones the code fails, C18); arrays have the right shape
(the code raises `TypeError` on others). -/
noncomputable def vectorClass (sigma : ℝ → ℝ → ℝ → ℝ) (vec : V → List ℚ) : CustomClass V (ℕ → ℚ) (ℕ → ℝ) where
  requests p := [⟨p.noiseKind.mechanism, p.budgetWeight⟩]
  create _ vs := fun j => (vs.map fun v => (vec v).getD j 0).sum
  merge _ a b := fun j => a j + b j
  compute p bs a := vectorLaw (vectorMechanism sigma p (bs.headD (0, 0))) (p.vectorSize.getD 0) (p.vectorMaxNorm.getD 0 : ℚ)
    (p.vectorNormKind.getD .linf) a
  sampling := true

/-! ### Specification -/

/-- Parameters of a call with VECTOR_SUM of arrays of length `n`, clipped to the norm `kind` at most `M`. -/
structure VectorParams (p : Params) (l0 linf n : ℕ) (M : ℚ) (kind : NormKind) : Prop where
  partitions : p.maxPartitions = some l0
  perPartition : p.maxPerPartition = some linf
  size : p.vectorSize = some n
  norm : p.vectorMaxNorm = some M
  normKind : p.vectorNormKind = some kind
  l0_pos : 0 < l0
  linf_pos : 0 < linf
  size_pos : 0 < n
  norm_nonneg : 0 ≤ M
  supported : kind ≠ .l0

/-- The largest sum of the changes of all coordinates, between two vectors of length `n` in the ball of radius `M`. -/
noncomputable def vectorSpread (n : ℕ) (M : ℝ) : NormKind → ℝ
  | .linf => 2 * M * n
  | .l1 => 2 * M
  | .l2 => 2 * M * Real.sqrt n
  | .l0 => 0

/-- When the noise of the code covers what one user can change: the released vector is clipped to at most half of
`max_contributions_per_partition`; or single coordinates are clipped and all arrays have coordinates of at most 1; or the noise is
Laplace, and the spread of all coordinates is at most `max_contributions_per_partition` times their number. -/
def VectorCovered (vec : V → List ℚ) (noise : NoiseKind) (linf n : ℕ) (M : ℚ) (kind : NormKind) : Prop :=
  2 * M ≤ linf ∨ (kind = .linf ∧ ∀ v, ∀ x ∈ vec v, |x| ≤ 1) ∨ (noise = .laplace ∧ vectorSpread n M kind ≤ linf * n)

/-! ### Lemmas -/

theorem measurable_padded (n : ℕ) : Measurable (padded n) := by
  refine measurable_pi_iff.mpr fun j => ?_
  unfold padded
  by_cases h : j < n
  · simp only [h, dif_pos]; exact measurable_pi_apply _
  · simp only [h, dif_neg, not_false_eq_true]; exact measurable_const

theorem vectorClass_total (sigma : ℝ → ℝ → ℝ → ℝ) (vec : V → List ℚ) (p : Params) (l : List (List V)) (j : ℕ) :
    (vectorClass sigma vec).total p l j = (l.map fun vs => (vs.map fun v => (vec v).getD j 0).sum).sum := by
  cases l with
  | nil => rfl
  | cons x l =>
    show (l.map ((vectorClass sigma vec).create p)).foldl ((vectorClass sigma vec).merge p) _ j = _
    rw [List.map_cons, List.sum_cons]
    have : ∀ (l : List (List V)) (a : ℕ → ℚ), (l.map ((vectorClass sigma vec).create p)).foldl ((vectorClass sigma vec).merge p) a j
        = a j + (l.map fun vs => (vs.map fun v => (vec v).getD j 0).sum).sum := by
      intro l
      induction l with
      | nil => intro a; simp
      | cons y l ih =>
        intro a
        rw [List.map_cons, List.foldl_cons, ih, List.map_cons, List.sum_cons, ← add_assoc]
        rfl
    rw [this]
    rfl

/-- A vector in a ball has coordinates within its radius. -/
theorem coordinate_of_inBall {M : ℝ} {w : List ℝ} {kind : NormKind} (h : InBall M w kind) : ∀ x ∈ w, |x| ≤ M := by
  intro x hx
  cases kind with
  | linf => exact h x hx
  | l0 => exact h.elim
  | l1 =>
    refine le_trans (List.single_le_sum ?_ _ (List.mem_map_of_mem hx)) h
    intro y hy
    obtain ⟨z, -, rfl⟩ := List.mem_map.mp hy
    exact abs_nonneg z
  | l2 =>
    refine le_trans ?_ h
    rw [← Real.sqrt_sq_eq_abs]
    refine Real.sqrt_le_sqrt (List.single_le_sum ?_ _ (List.mem_map_of_mem hx))
    intro y hy
    obtain ⟨z, -, rfl⟩ := List.mem_map.mp hy
    exact sq_nonneg z

theorem clamp_lipschitz (x y M : ℝ) : |min (max x (-M)) M - min (max y (-M)) M| ≤ |x - y| :=
  (abs_min_sub_min_le_max _ _ _ _).trans (by
    rw [sub_self, abs_zero, max_eq_left (abs_nonneg _)]
    refine (abs_max_sub_max_le_max _ _ _ _).trans ?_
    rw [sub_self, abs_zero, max_eq_left (abs_nonneg _)])

/-- Two vectors in the ball. -/
theorem sum_le_spread {M : ℝ} {n : ℕ} (hM : 0 ≤ M) {kind : NormKind} {x y : Fin n → ℝ} (hx : InBall M (List.ofFn x) kind)
    (hy : InBall M (List.ofFn y) kind) : ∑ j, |x j - y j| ≤ vectorSpread n M kind := by
  have hxy : ∑ j, |x j - y j| ≤ ∑ j, |x j| + ∑ j, |y j| := by
    rw [← Finset.sum_add_distrib]
    exact Finset.sum_le_sum fun j _ => abs_sub _ _
  refine hxy.trans ?_
  cases kind with
  | l0 => exact hx.elim
  | linf =>
    have : ∀ z : Fin n → ℝ, InBall M (List.ofFn z) .linf → ∑ j, |z j| ≤ M * n := by
      intro z hz
      have := Finset.sum_le_card_nsmul Finset.univ (fun j => |z j|) M fun j _ => hz (z j) (List.mem_ofFn.mpr ⟨j, rfl⟩)
      simpa [mul_comm] using this
    have h1 := this x hx
    have h2 := this y hy
    simp only [vectorSpread]
    linarith
  | l1 =>
    have : ∀ z : Fin n → ℝ, InBall M (List.ofFn z) .l1 → ∑ j, |z j| ≤ M := by
      intro z hz
      simp only [InBall, List.map_ofFn, List.sum_ofFn] at hz
      exact hz
    have h1 := this x hx
    have h2 := this y hy
    simp only [vectorSpread]
    linarith
  | l2 =>
    have : ∀ z : Fin n → ℝ, InBall M (List.ofFn z) .l2 → ∑ j, |z j| ≤ M * Real.sqrt n := by
      intro z hz
      simp only [InBall, List.map_ofFn, List.sum_ofFn] at hz
      have h1 : Real.sqrt (∑ j, z j ^ 2) ≤ M := hz
      have h2 : (∑ j, |z j|) ^ 2 ≤ n * ∑ j, z j ^ 2 := by
        have := sq_sum_le_card_mul_sum_sq (s := Finset.univ) (f := fun j => |z j|)
        simpa [sq_abs] using this
      have h3 : 0 ≤ ∑ j, |z j| := Finset.sum_nonneg fun j _ => abs_nonneg _
      calc ∑ j, |z j| = Real.sqrt ((∑ j, |z j|) ^ 2) := (Real.sqrt_sq h3).symm
        _ ≤ Real.sqrt (n * ∑ j, z j ^ 2) := Real.sqrt_le_sqrt h2
        _ = Real.sqrt n * Real.sqrt (∑ j, z j ^ 2) := Real.sqrt_mul (Nat.cast_nonneg _) _
        _ ≤ Real.sqrt n * M := mul_le_mul_of_nonneg_left h1 (Real.sqrt_nonneg _)
        _ = M * Real.sqrt n := mul_comm _ _
    have h1 := this x hx
    have h2 := this y hy
    simp only [vectorSpread]
    linarith

/-- The clipped coordinates. -/
theorem vectorClass_compute (sigma : ℝ → ℝ → ℝ → ℝ) (vec : V → List ℚ) {p : Params} {l0 linf n : ℕ} {M : ℚ} {kind : NormKind}
    (hp : VectorParams p l0 linf n M kind) :
    ∃ w : (ℕ → ℚ) → ℕ → ℝ,
      (∀ bs a, (vectorClass sigma vec).compute p bs a
        = (Measure.pi fun j : Fin n => noisy (vectorMechanism sigma p (bs.headD (0, 0))) (w a j)).map (padded n)) ∧
      (∀ a, InBall M (List.ofFn fun j : Fin n => w a j) kind) ∧
      (kind = .linf → ∀ a j, j < n → w a j = min (max (a j : ℝ) (-(M : ℝ))) M) ∧
      (∀ a, InBall M (List.ofFn fun j : Fin n => ((a j : ℚ) : ℝ)) kind → ∀ j, j < n → w a j = a j) ∧
      (kind = .l2 → ∀ (a : ℕ → ℚ) (c : ℝ), c = Real.sqrt (∑ j : Fin n, ((a j : ℚ) : ℝ) ^ 2) → c ≠ 0 → (M : ℝ) ≤ c → ∀ j, j < n →
        w a j = a j * (M / c)) := by
  have hM : (0 : ℝ) ≤ (M : ℝ) := by exact_mod_cast hp.norm_nonneg
  have key := fun a : ℕ → ℚ => C18_clipped_vector_is_in_ball (List.ofFn fun j : Fin n => ((a j : ℚ) : ℝ)) (M : ℝ) hM kind hp.supported
  choose w h1 h2 h3 h4 using key
  have hlen : ∀ a, (w a).length = n := fun a => by rw [h2 a, List.length_ofFn]
  refine ⟨fun a j => (w a).getD j 0, ?_, ?_, ?_, ?_, ?_⟩
  · intro bs a
    simp only [vectorClass, hp.size, hp.norm, hp.normKind, Option.getD_some]
    unfold vectorLaw
    rw [h1 a]
  · intro a
    have : (List.ofFn fun j : Fin n => (w a).getD j 0) = w a := by
      apply List.ext_getElem (by simp [hlen])
      intro j hj hj'
      rw [List.getElem_ofFn]
      exact List.getD_eq_getElem _ _ hj'
    rw [this]
    exact h3 a
  · rintro rfl a j hj
    have := h1 a
    simp only [clipVector, Except.ok.injEq] at this
    dsimp only
    rw [← this]
    rw [List.getD_eq_getElem _ _ (by simpa using hj)]
    simp
  · intro a ha j hj
    dsimp only
    rw [h4 a ha, List.getD_eq_getElem _ _ (by simpa using hj)]
    simp
  · rintro rfl a c hc hc0 hMc j hj
    have := h1 a
    simp only [clipVector, scaleTo, Except.ok.injEq, List.map_ofFn, List.sum_ofFn, Function.comp_def] at this
    dsimp only
    rw [← hc] at this
    rw [← this, List.getD_eq_getElem _ _ (by simpa using hj)]
    have hcpos : 0 < c := lt_of_le_of_ne (hc ▸ Real.sqrt_nonneg _) (Ne.symm hc0)
    simp [hc0, min_eq_right ((div_le_one hcpos).mpr hMc)]

/-- Vectors of independent coordinates as one family of numbers. -/
theorem flat_vectors {ι : Type} [Fintype ι] {n : ℕ} (ρ : ι → Fin n → Measure ℝ) [hρ : ∀ i j, IsProbabilityMeasure (ρ i j)] :
    (Measure.pi fun i => (Measure.pi fun j => ρ i j).map (padded n))
      = ((Measure.pi fun q : ι × Fin n => ρ q.1 q.2).map (MeasurableEquiv.curry ι (Fin n) ℝ)).map fun x i => padded n (x i) := by
  have h1 : (Measure.pi fun q : ι × Fin n => ρ q.1 q.2).map (MeasurableEquiv.curry ι (Fin n) ℝ)
      = Measure.pi fun i => Measure.pi (ρ i) := by
    have := Measure.infinitePi_map_curry ρ
    rw [Measure.infinitePi_eq_pi, Measure.infinitePi_eq_pi] at this
    rw [this]
    congr 1
    funext i
    rw [Measure.infinitePi_eq_pi]
  rw [h1, Measure.pi_map_pi fun i => (measurable_padded n).aemeasurable]

/-- A family of vectors, coordinate by coordinate. -/
theorem indist_vectors {ι : Type} [Fintype ι] {n : ℕ} {e d : ℝ} (hd : 0 ≤ d) (μ ν : ι → Fin n → Measure ℝ)
    [∀ i j, IsProbabilityMeasure (μ i j)] [∀ i j, IsProbabilityMeasure (ν i j)]
    (h : ∀ j, Indist e d (Measure.pi fun i => μ i j) (Measure.pi fun i => ν i j)) :
    Indist (n * e) (n * d) (Measure.pi fun i => (Measure.pi fun j => μ i j).map (padded n))
      (Measure.pi fun i => (Measure.pi fun j => ν i j).map (padded n)) := by
  rw [flat_vectors μ, flat_vectors ν]
  have hm : Measurable fun (x : ι → Fin n → ℝ) i => padded n (x i) :=
    measurable_pi_iff.mpr fun i => (measurable_padded n).comp (measurable_pi_apply i)
  refine Indist.map (Indist.map ?_ (MeasurableEquiv.measurable _)) hm
  have := Indist.groups (List.finRange n) (List.nodup_finRange n) (fun _ => e) (fun _ => d) (fun _ _ => hd)
    (fun q : ι × Fin n => q.2) (fun q => μ q.1 q.2) (fun q => ν q.1 q.2)
    (fun q hq => absurd (List.mem_finRange _) hq) (fun j _ => by
      let f : {q : ι × Fin n // q.2 = j} ≃ ι :=
        { toFun := fun q => q.1.1
          invFun := fun i => ⟨(i, j), rfl⟩
          left_inv := fun q => by
            obtain ⟨⟨i, j'⟩, rfl⟩ := q
            rfl
          right_inv := fun _ => rfl }
      have h1 := Indist.reindex f.symm (μ := fun q : {q : ι × Fin n // q.2 = j} => μ q.1.1 q.1.2)
        (ν := fun q : {q : ι × Fin n // q.2 = j} => ν q.1.1 q.1.2) (h j)
      exact h1)
  simpa using this

end PDP.EndToEnd
