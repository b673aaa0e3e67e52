import Verif.EndToEnd.VectorProps

/-! # VECTOR_SUM: the loss is attained, and pipelines (C79) -/

set_option linter.unusedSectionVars false

namespace PDP.EndToEnd

open PDP PDP.Engine PDP.Approx MeasureTheory
open PDP.Engine.Mechanism (Additive computed)
open PDP.Engine.AddNoise (specOf)
open PDP.Budget (State Op MechType Out)

variable {R P K V : Type} [DecidableEq P] [DecidableEq K]

/-! ### The loss is attained -/

/-- Probability that all coordinates are at least `x`. -/
theorem vectors_corner {ι : Type} [Fintype ι] {n : ℕ} {b z : ℝ} (hb : 0 < b) (x y : ι → ℕ → ℝ) (hxy : ∀ i, ∀ j < n, y i j ≤ x i j) :
    (Measure.pi fun i => (Measure.pi fun j : Fin n => noisy (.laplace b z) (y i j)).map (padded n))
      (Set.univ.pi fun i => {u : ℕ → ℝ | ∀ j : Fin n, x i j ≤ u j})
    = ENNReal.ofReal (Real.exp (-(∑ i, ∑ j : Fin n, (x i j - y i j)) / b) * (1 / 2) ^ (Fintype.card ι * n)) := by
  have hprob : ∀ c, IsProbabilityMeasure (noisy (.laplace b z) c) := noisy_laplace_prob hb z
  have hp : ∀ i, IsProbabilityMeasure ((Measure.pi fun j : Fin n => noisy (.laplace b z) (y i j)).map (padded n)) :=
    fun i => Measure.isProbabilityMeasure_map (measurable_padded n).aemeasurable
  have hset : ∀ i, {u : ℕ → ℝ | ∀ j : Fin n, x i j ≤ u j} = ⋂ j : Fin n, (fun u : ℕ → ℝ => u j) ⁻¹' Set.Ici (x i j) := by
    intro i
    ext u
    simp
  have hone : ∀ i, ((Measure.pi fun j : Fin n => noisy (.laplace b z) (y i j)).map (padded n)) {u : ℕ → ℝ | ∀ j : Fin n, x i j ≤ u j}
      = ENNReal.ofReal (∏ j : Fin n, Real.exp (-(x i j - y i j) / b) / 2) := by
    intro i
    rw [Measure.map_apply (measurable_padded n) (by
      rw [hset]
      exact MeasurableSet.iInter fun j => (measurable_pi_apply (j : ℕ)) measurableSet_Ici)]
    have hpre : padded n ⁻¹' {u : ℕ → ℝ | ∀ j : Fin n, x i j ≤ u j} = Set.univ.pi fun j : Fin n => {v : ℝ | x i j ≤ v} := by
      ext u
      simp [padded]
    rw [hpre, Measure.pi_pi, ENNReal.ofReal_prod_of_nonneg fun j _ => by positivity]
    refine Finset.prod_congr rfl fun j _ => ?_
    have := laplace_tail hb (t := x i j - y i j) (sub_nonneg.mpr (hxy i j j.2)) (y i j) z
    rwa [add_sub_cancel] at this
  rw [Measure.pi_pi]
  simp only [hone]
  rw [← ENNReal.ofReal_prod_of_nonneg fun i _ => Finset.prod_nonneg fun j _ => by positivity]
  congr 1
  simp only [div_eq_mul_inv (Real.exp _), Finset.prod_mul_distrib, ← Real.exp_sum, Finset.prod_const, Finset.card_univ,
    Fintype.card_fin]
  congr 1
  · congr 1
    rw [neg_div, Finset.sum_div, ← Finset.sum_neg_distrib]
    refine Finset.sum_congr rfl fun i _ => ?_
    rw [Finset.sum_div, ← Finset.sum_neg_distrib]
    exact Finset.sum_congr rfl fun j _ => neg_div _ _
  · rw [← pow_mul, mul_comm]
    norm_num

/-- **C79** (the loss of `C79_actual_loss` is attained).  For all parameters with Laplace noise, one user with one array in each of
`max_partitions_contributed` partitions can change the released vectors so much that no epsilon below
`spread / (max_contributions_per_partition * vector_size)` times the requested one holds. -/
theorem C79_loss_is_attained (sigma : ℝ → ℝ → ℝ → ℝ) {p : Params} {l0 linf n : ℕ} {M : ℚ} {kind : NormKind}
    (hp : VectorParams p l0 linf n M kind) (hmc : p.maxContributions = none) (hn : p.noiseKind = .laplace) {e d : ℝ} (he : 0 < e) :
    ∃ (X Y : Fin l0 → List (List (List ℚ))) (E : List (Fin l0 × List (List ℚ))),
      UserEntries p true E ∧ (∀ k, (X k).Perm (valuesOf k E ++ Y k)) ∧ (∀ k, ∀ vs ∈ X k, vs.length = 1 ∧ ∀ v ∈ vs, v.length = n) ∧
      ∀ e', e' < vectorSpread n M kind / (linf * n) * e →
        ¬ Close e' 0 (fun k => (vectorClass sigma id).compute p [(e, d)] ((vectorClass sigma id).total p (X k)))
          (fun k => (vectorClass sigma id).compute p [(e, d)] ((vectorClass sigma id).total p (Y k))) := by
  have q0 : (0 : ℝ) < l0 := by exact_mod_cast hp.l0_pos
  have qi : (0 : ℝ) < linf := by exact_mod_cast hp.linf_pos
  have qn : (0 : ℝ) < n := by exact_mod_cast hp.size_pos
  have hM : (0 : ℝ) ≤ (M : ℝ) := by exact_mod_cast hp.norm_nonneg
  obtain ⟨w, w1, w2, w3, w4, w5⟩ := vectorClass_compute sigma (id : List ℚ → List ℚ) hp
  -- the two ends
  have hends : ∃ a : List ℚ, a.length = n ∧ (∀ j < n, w (fun j => -(a.getD j 0)) j ≤ w (fun j => a.getD j 0) j) ∧
      ∑ j : Fin n, (w (fun j => a.getD j 0) j - w (fun j => -(a.getD j 0)) j) = vectorSpread n M kind := by
    have hrep : ∀ (x : ℚ) (j : ℕ), j < n → (List.replicate n x).getD j 0 = x := by
      intro x j hj
      rw [List.getD_eq_getElem _ _ (by simpa using hj), List.getElem_replicate]
    cases hk : kind with
    | l0 => exact absurd hk hp.supported
    | linf =>
      have h1 : ∀ j < n, w (fun j => (List.replicate n M).getD j 0) j = M := by
        intro j hj
        rw [w3 hk _ j hj, hrep M j hj, max_eq_left (by linarith), min_self]
      have h2 : ∀ j < n, w (fun j => -((List.replicate n M).getD j 0)) j = -M := by
        intro j hj
        rw [w3 hk _ j hj, hrep M j hj, Rat.cast_neg, max_self, min_eq_left (by linarith)]
      refine ⟨List.replicate n M, by simp, fun j hj => by rw [h1 j hj, h2 j hj]; linarith, ?_⟩
      rw [Finset.sum_congr rfl fun j _ => by rw [h1 j j.2, h2 j j.2]]
      simp only [Finset.sum_const, Finset.card_univ, Fintype.card_fin, nsmul_eq_mul, vectorSpread]
      ring
    | l1 =>
      have hget : ∀ j < n, (M :: List.replicate (n - 1) 0).getD j 0 = if j = 0 then M else 0 := by
        intro j hj
        cases j with
        | zero => rfl
        | succ j =>
          rw [List.getD_cons_succ, List.getD_eq_getElem _ _ (by simp; omega), List.getElem_replicate]
          rfl
      have hpos : 0 < n := hp.size_pos
      have hsum : ∀ x : ℝ, ∑ j : Fin n, (if (j : ℕ) = 0 then x else 0) = x := by
        intro x
        rw [Finset.sum_eq_single (⟨0, hpos⟩ : Fin n)]
        · rfl
        · intro j _ hj
          rw [if_neg]
          intro h
          exact hj (Fin.ext h)
        · simp
      have hball : ∀ s : ℚ, |s| = 1 → InBall M (List.ofFn fun j : Fin n => ((s * (M :: List.replicate (n - 1) 0).getD j 0 : ℚ) : ℝ)) kind := by
        intro s hs
        rw [hk]
        simp only [InBall, List.map_ofFn, List.sum_ofFn]
        refine le_of_eq ?_
        rw [← hsum (M : ℝ)]
        refine Finset.sum_congr rfl fun j _ => ?_
        show |((s * (M :: List.replicate (n - 1) 0).getD j 0 : ℚ) : ℝ)| = _
        rw [hget j j.2]
        split
        · rw [← Rat.cast_abs, abs_mul, hs, one_mul, abs_of_nonneg hp.norm_nonneg]
        · simp
      have h1 : ∀ j < n, w (fun j => (M :: List.replicate (n - 1) 0).getD j 0) j = if j = 0 then (M : ℝ) else 0 := by
        intro j hj
        have := hball 1 (by simp)
        simp only [one_mul] at this
        rw [w4 _ this j hj, hget j hj]
        split <;> simp
      have h2 : ∀ j < n, w (fun j => -((M :: List.replicate (n - 1) 0).getD j 0)) j = if j = 0 then -(M : ℝ) else 0 := by
        intro j hj
        have := hball (-1) (by simp)
        simp only [neg_one_mul] at this
        rw [w4 _ this j hj, hget j hj]
        split <;> simp
      refine ⟨M :: List.replicate (n - 1) 0, by simp; omega, fun j hj => ?_, ?_⟩
      · rw [h1 j hj, h2 j hj]
        split
        · linarith
        · exact le_rfl
      · rw [Finset.sum_congr rfl fun j _ => by rw [h1 j j.2, h2 j j.2], Finset.sum_sub_distrib, hsum, hsum]
        simp only [vectorSpread]
        ring
    | l2 =>
      have hc : ∀ s : ℚ, s ^ 2 = 1 → Real.sqrt n * (M + 1)
          = Real.sqrt (∑ j : Fin n, ((s * (List.replicate n (M + 1)).getD j 0 : ℚ) : ℝ) ^ 2) := by
        intro s hs
        rw [Finset.sum_congr rfl fun j _ => by rw [hrep (M + 1) j j.2]]
        have : ((s * (M + 1) : ℚ) : ℝ) ^ 2 = ((M : ℝ) + 1) ^ 2 := by
          have h : (s * (M + 1)) ^ 2 = (M + 1) ^ 2 := by rw [mul_pow, hs, one_mul]
          exact_mod_cast h
        rw [this]
        simp only [Finset.sum_const, Finset.card_univ, Fintype.card_fin, nsmul_eq_mul]
        rw [Real.sqrt_mul qn.le, Real.sqrt_sq (by linarith)]
      have hsn : 0 < Real.sqrt n := Real.sqrt_pos.mpr qn
      have hsn1 : 1 ≤ Real.sqrt n := by
        rw [Real.one_le_sqrt]
        exact_mod_cast hp.size_pos
      have hc0 : Real.sqrt n * ((M : ℝ) + 1) ≠ 0 := by positivity
      have hMc : (M : ℝ) ≤ Real.sqrt n * ((M : ℝ) + 1) := by nlinarith
      have hval : ∀ s : ℚ, s ^ 2 = 1 → ∀ j < n, w (fun j => s * (List.replicate n (M + 1)).getD j 0) j = s * (M / Real.sqrt n) := by
        intro s hs j hj
        rw [w5 hk _ _ (hc s hs) hc0 hMc j hj, hrep (M + 1) j hj]
        push_cast
        have : (M : ℝ) + 1 ≠ 0 := by positivity
        field_simp
      have h1 : ∀ j < n, w (fun j => (List.replicate n (M + 1)).getD j 0) j = M / Real.sqrt n := by
        intro j hj
        have := hval 1 (by norm_num) j hj
        simpa only [one_mul, Rat.cast_one] using this
      have h2 : ∀ j < n, w (fun j => -((List.replicate n (M + 1)).getD j 0)) j = -(M / Real.sqrt n) := by
        intro j hj
        have := hval (-1) (by norm_num) j hj
        simpa only [neg_one_mul, Rat.cast_neg, Rat.cast_one] using this
      have hnn : 0 ≤ (M : ℝ) / Real.sqrt n := by positivity
      refine ⟨List.replicate n (M + 1), by simp, fun j hj => by rw [h1 j hj, h2 j hj]; linarith, ?_⟩
      rw [Finset.sum_congr rfl fun j _ => by rw [h1 j j.2, h2 j j.2]]
      simp only [Finset.sum_const, Finset.card_univ, Fintype.card_fin, nsmul_eq_mul, vectorSpread]
      have hsq : (n : ℝ) = Real.sqrt n * Real.sqrt n := (Real.mul_self_sqrt qn.le).symm
      field_simp
      nlinarith [hsq]
  obtain ⟨a, ha, hle, hsum⟩ := hends
  have hneg : ∀ j, ((a.map fun x => -x).getD j 0) = -(a.getD j 0) := by
    intro j
    by_cases hj : j < a.length
    · rw [List.getD_eq_getElem _ _ (by simpa using hj), List.getD_eq_getElem _ _ hj]; simp
    · rw [List.getD_eq_default _ _ (by simpa using hj), List.getD_eq_default _ _ (not_lt.mp hj)]; simp
  have hdouble : ∀ j, ((a.map fun x => 2 * x).getD j 0) = 2 * a.getD j 0 := by
    intro j
    by_cases hj : j < a.length
    · rw [List.getD_eq_getElem _ _ (by simpa using hj), List.getD_eq_getElem _ _ hj]; simp
    · rw [List.getD_eq_default _ _ (by simpa using hj), List.getD_eq_default _ _ (not_lt.mp hj)]; simp
  let E : List (Fin l0 × List (List ℚ)) := (List.finRange l0).map fun k => (k, [a.map fun x => 2 * x])
  have hkeys : E.map Prod.fst = List.finRange l0 := by
    simp [E, Function.comp_def]
  have hval : ∀ k, valuesOf k E = [[a.map fun x => 2 * x]] := by
    intro k
    have : ∀ l : List (Fin l0), l.Nodup → k ∈ l → valuesOf k (l.map fun k => (k, [a.map fun x => 2 * x])) = [[a.map fun x => 2 * x]] := by
      intro l
      induction l with
      | nil => intro _ h; cases h
      | cons i l ih =>
        intro hnd hk
        rw [List.nodup_cons] at hnd
        by_cases hik : i = k
        · subst hik
          have hnil : valuesOf i (l.map fun k => (k, [a.map fun x => 2 * x])) = [] := by
            unfold valuesOf
            rw [List.map_eq_nil_iff, List.filter_eq_nil_iff]
            intro x hx
            obtain ⟨j, hj, rfl⟩ := List.mem_map.mp hx
            simp only [decide_eq_true_eq]
            rintro rfl
            exact hnd.1 hj
          have : valuesOf i ((i :: l).map fun k => (k, [a.map fun x => 2 * x]))
              = [a.map fun x => 2 * x] :: valuesOf i (l.map fun k => (k, [a.map fun x => 2 * x])) := by
            simp [valuesOf]
          rw [this, hnil]
        · have : valuesOf k ((i :: l).map fun k => (k, [a.map fun x => 2 * x])) = valuesOf k (l.map fun k => (k, [a.map fun x => 2 * x])) := by
            simp [valuesOf, hik]
          rw [this]
          refine ih hnd.2 ?_
          rcases List.mem_cons.mp hk with h | h
          · exact absurd h.symm hik
          · exact h
    exact this _ (List.nodup_finRange l0) (List.mem_finRange k)
  refine ⟨fun _ => [[a.map fun x => 2 * x], [a.map fun x => -x]], fun _ => [[a.map fun x => -x]], E, ?_, ?_, ?_, ?_⟩
  · refine ⟨?_, ?_, ?_, ?_, ?_⟩
    · intro x hx
      obtain ⟨k, -, rfl⟩ := List.mem_map.mp hx
      simp
    · intro m hm
      rw [hp.partitions] at hm
      cases hm
      rw [hkeys, (List.nodup_finRange l0).dedup, List.length_finRange]
    · intro m hm _ k
      rw [hp.perPartition] at hm
      cases hm
      rw [hval]
      simpa [Nat.one_le_iff_ne_zero] using hp.linf_pos.ne'
    · intro m hm
      rw [hmc] at hm
      cases hm
    · intro _
      rw [hkeys]
      exact List.nodup_finRange l0
  · intro k
    rw [hval]
    exact List.Perm.refl _
  · intro k vs hvs
    simp only [List.mem_cons, List.not_mem_nil, or_false] at hvs
    rcases hvs with rfl | rfl <;> simp [ha]
  · intro e' he' hclose
    have hX : ((vectorClass sigma id).total p [[a.map fun x => 2 * x], [a.map fun x => -x]]) = fun j => a.getD j 0 := by
      funext j
      rw [vectorClass_total]
      simp only [List.map_cons, List.map_nil, List.sum_cons, List.sum_nil, id, add_zero, hneg, hdouble]
      ring
    have hY : ((vectorClass sigma id).total p [[a.map fun x => -x]]) = fun j => -(a.getD j 0) := by
      funext j
      rw [vectorClass_total]
      simp only [List.map_cons, List.map_nil, List.sum_cons, List.sum_nil, id, add_zero, hneg]
    have h := hclose (ι := Fin l0) id Function.injective_id (Set.univ.pi fun _ => {u : ℕ → ℝ | ∀ j : Fin n, w (fun j => a.getD j 0) j ≤ u j})
      (by
        refine MeasurableSet.univ_pi fun i => ?_
        have : {u : ℕ → ℝ | ∀ j : Fin n, w (fun j => a.getD j 0) j ≤ u j}
            = ⋂ j : Fin n, (fun u : ℕ → ℝ => u j) ⁻¹' Set.Ici (w (fun j => a.getD j 0) j) := by
          ext u
          simp
        rw [this]
        exact MeasurableSet.iInter fun j => (measurable_pi_apply (j : ℕ)) measurableSet_Ici)
    simp only [hX, hY, w1, List.headD_cons, vectorMechanism_eq sigma hp, hn] at h
    have hb : 0 < l1Sens l0 linf / (e / n) := div_pos (mul_pos q0 qi) (div_pos he qn)
    rw [vectors_corner hb (fun _ => w fun j => a.getD j 0) (fun _ => w fun j => a.getD j 0) fun _ j hj => le_rfl,
      vectors_corner hb (fun _ => w fun j => a.getD j 0) (fun _ => w fun j => -(a.getD j 0)) fun _ j hj => hle j hj] at h
    simp only [hsum, sub_self, Finset.sum_const_zero, neg_zero, zero_div, Real.exp_zero, one_mul, Finset.sum_const, Finset.card_univ,
      Fintype.card_fin, nsmul_eq_mul, ENNReal.ofReal_zero, add_zero] at h
    rw [← ENNReal.ofReal_mul (Real.exp_nonneg _), ENNReal.ofReal_le_ofReal_iff (by positivity), ← mul_assoc, ← Real.exp_add] at h
    have hhalf : (0 : ℝ) < (1 / 2) ^ (l0 * n) := by positivity
    have h1 : 1 ≤ Real.exp (e' + -(l0 * vectorSpread n M kind) / (l1Sens l0 linf / (e / n))) := by
      by_contra hlt
      push Not at hlt
      nlinarith
    have h2 : 0 ≤ e' + -(l0 * vectorSpread n M kind) / (l1Sens l0 linf / (e / n)) := by
      rw [← Real.exp_zero, Real.exp_le_exp] at h1
      exact h1
    have h3 : -(l0 * vectorSpread n M kind) / (l1Sens l0 linf / (e / n)) = -(vectorSpread n M kind / (linf * n) * e) := by
      unfold l1Sens
      field_simp
    rw [h3] at h2
    linarith

/-- **C79** (exactly when): for arbitrary arrays and Laplace noise, VECTOR_SUM keeps the promise of its budget if and only if the spread
of the norm ball is at most `max_contributions_per_partition * vector_size`. -/
theorem C79_private_iff (sigma : ℝ → ℝ → ℝ → ℝ) (hg : GaussianContract sigma) {p : Params} {l0 linf n : ℕ} {M : ℚ} {kind : NormKind}
    (hp : VectorParams p l0 linf n M kind) (hmc : p.maxContributions = none) (hn : p.noiseKind = .laplace) :
    (vectorClass sigma (id : List ℚ → List ℚ)).Private p ↔ vectorSpread n M kind ≤ linf * n := by
  have qi : (0 : ℝ) < linf := by exact_mod_cast hp.linf_pos
  have qn : (0 : ℝ) < n := by exact_mod_cast hp.size_pos
  constructor
  · intro h
    by_contra hlt
    push Not at hlt
    obtain ⟨X, Y, E, hE, hXY, -, hno⟩ := C79_loss_is_attained sigma hp hmc hn (e := 1) (d := 0) one_pos
    refine hno 1 ?_ ?_
    · rw [mul_one, lt_div_iff₀ (mul_pos qi qn), one_mul]
      exact hlt
    · obtain ⟨this, -⟩ := h.dp [(1, 0)] (List.Forall₂.cons ⟨one_pos, le_rfl, fun hh => absurd (by simp [hn, NoiseKind.mechanism]) hh⟩
        List.Forall₂.nil) X Y E hE hXY
      simp only [List.map_cons, List.map_nil, List.sum_cons, List.sum_nil, add_zero] at this
      intro ι _ f hf
      exact this f hf
  · intro h
    exact C79_vector_sum_is_private sigma hg _ hp (Or.inr (Or.inr ⟨hn, h⟩))

/-- **C79** (no guarantee without a bound on the norm).  Whatever `(e', d')` with `d' < 1` is asked for, and whatever the budget of
VECTOR_SUM and the bounds on contributions are: for every large enough `max_norm`, one array of one user changes the released vector
too much. -/
theorem C79_large_norms_are_not_private (l0 linf n : ℕ) (h0 : 0 < l0) (hi : 0 < linf) (hn0 : 0 < n) {e : ℝ} (he : 0 < e) (e' : ℝ)
    {d' : ℝ} (hd0 : 0 ≤ d') (hd1 : d' < 1) :
    ∃ M0 : ℚ, ∀ M, M0 ≤ M → ∀ (p : Params) (kind : NormKind), VectorParams p l0 linf n M kind → p.maxContributions = none →
      p.noiseKind = .laplace → ∀ (sigma : ℝ → ℝ → ℝ → ℝ) (d : ℝ),
      ∃ other user : List ℚ, other.length = n ∧ user.length = n ∧ UserEntries p true [((), [user])] ∧
        ¬ Close (K := Unit) e' d'
          (fun _ => (vectorClass sigma id).compute p [(e, d)] ((vectorClass sigma id).total p [[user], [other]]))
          (fun _ => (vectorClass sigma id).compute p [(e, d)] ((vectorClass sigma id).total p [[other]])) := by
  have q0 : (0 : ℝ) < l0 := by exact_mod_cast h0
  have qi : (0 : ℝ) < linf := by exact_mod_cast hi
  have qn : (0 : ℝ) < n := by exact_mod_cast hn0
  have hb : 0 < l1Sens l0 linf / (e / n) := div_pos (mul_pos q0 qi) (div_pos he qn)
  generalize hbe : l1Sens (l0 : ℝ) linf / (e / n) = b at hb
  obtain ⟨m, hm⟩ := exists_nat_gt (2 * b * ((1 + Real.exp e') / (1 - d')))
  refine ⟨m, fun M hM p kind hp hmc hn sigma d => ?_⟩
  have hMr : (m : ℝ) ≤ M := by exact_mod_cast hM
  have hM0 : (0 : ℝ) ≤ M := le_trans (Nat.cast_nonneg m) hMr
  obtain ⟨w, w1, -, -, w4, -⟩ := vectorClass_compute sigma (id : List ℚ → List ℚ) hp
  have hget : ∀ (x : ℚ) (j : ℕ), (x :: List.replicate (n - 1) 0).getD j 0 = if j = 0 then x else 0 := by
    intro x j
    cases j with
    | zero => rfl
    | succ j =>
      rw [List.getD_cons_succ]
      by_cases hj : j < n - 1
      · rw [List.getD_eq_getElem _ _ (by simpa using hj), List.getElem_replicate]; rfl
      · rw [List.getD_eq_default _ _ (by simpa using hj)]; rfl
  have hsum : ∀ x : ℝ, ∑ j : Fin n, (if (j : ℕ) = 0 then x else 0) = x := by
    intro x
    rw [Finset.sum_eq_single (⟨0, hn0⟩ : Fin n)]
    · rfl
    · intro j _ hj
      rw [if_neg]
      intro h
      exact hj (Fin.ext h)
    · simp
  have hcast : ∀ (x : ℚ) (j : Fin n), (((if (j : ℕ) = 0 then x else 0 : ℚ)) : ℝ) = if (j : ℕ) = 0 then (x : ℝ) else 0 := by
    intro x j
    split <;> simp
  have hball : ∀ x : ℚ, 0 ≤ x → x ≤ M → InBall M (List.ofFn fun j : Fin n => (((if (j : ℕ) = 0 then x else 0 : ℚ)) : ℝ)) kind := by
    intro x hx hxM
    have hx' : (0 : ℝ) ≤ x := by exact_mod_cast hx
    have hxM' : (x : ℝ) ≤ M := by exact_mod_cast hxM
    simp only [hcast]
    cases hk : kind with
    | l0 => exact absurd hk hp.supported
    | linf =>
      intro y hy
      obtain ⟨j, rfl⟩ := List.mem_ofFn.mp hy
      split
      · rw [abs_of_nonneg hx']; exact hxM'
      · rw [abs_zero]; exact hM0
    | l1 =>
      simp only [InBall, List.map_ofFn, List.sum_ofFn]
      refine le_trans (le_of_eq ?_) hxM'
      refine Eq.trans ?_ (hsum (x : ℝ))
      refine Finset.sum_congr rfl fun j _ => ?_
      show |if (j : ℕ) = 0 then (x : ℝ) else 0| = _
      split
      · rw [abs_of_nonneg hx']
      · rw [abs_zero]
    | l2 =>
      simp only [InBall, List.map_ofFn, List.sum_ofFn]
      have : ∑ j : Fin n, ((fun x : ℝ => x ^ 2) ∘ fun j : Fin n => if (j : ℕ) = 0 then (x : ℝ) else 0) j = (x : ℝ) ^ 2 := by
        rw [← hsum ((x : ℝ) ^ 2)]
        refine Finset.sum_congr rfl fun j _ => ?_
        show (if (j : ℕ) = 0 then (x : ℝ) else 0) ^ 2 = _
        split
        · rfl
        · simp
      rw [this, Real.sqrt_sq hx']
      exact hxM'
  have hw : ∀ x : ℚ, 0 ≤ x → x ≤ M → w (fun j => if j = 0 then x else 0) 0 = x := by
    intro x hx hxM
    rw [w4 _ (hball x hx hxM) 0 hn0, if_pos rfl]
  refine ⟨0 :: List.replicate (n - 1) 0, M :: List.replicate (n - 1) 0, by simp; omega, by simp; omega, ?_, fun hclose => ?_⟩
  · refine ⟨by simp, ?_, ?_, ?_, by simp⟩
    · intro k hk
      rw [hp.partitions] at hk
      cases hk
      simpa [Nat.one_le_iff_ne_zero] using h0.ne'
    · intro k hk _ _
      rw [hp.perPartition] at hk
      cases hk
      simpa [valuesOf, Nat.one_le_iff_ne_zero] using hi.ne'
    · intro k hk
      rw [hmc] at hk
      cases hk
  have hX : ((vectorClass sigma id).total p [[M :: List.replicate (n - 1) 0], [0 :: List.replicate (n - 1) 0]])
      = fun j => if j = 0 then M else 0 := by
    funext j
    rw [vectorClass_total]
    simp only [List.map_cons, List.map_nil, List.sum_cons, List.sum_nil, id, add_zero, hget]
    split <;> simp
  have hY : ((vectorClass sigma id).total p [[0 :: List.replicate (n - 1) 0]]) = fun j => if j = 0 then 0 else 0 := by
    funext j
    rw [vectorClass_total]
    simp only [List.map_cons, List.map_nil, List.sum_cons, List.sum_nil, id, add_zero, hget]
  have hprob : ∀ c, IsProbabilityMeasure (noisy (.laplace b (l1Sens l0 linf)) c) := noisy_laplace_prob hb _
  have h := (hclose (ι := Unit) id Function.injective_id).map (f := fun u => u () 0)
    ((measurable_pi_apply (0 : ℕ)).comp (measurable_pi_apply ()))
  simp only [hX, hY, w1, List.headD_cons, vectorMechanism_eq sigma hp, hn, hbe] at h
  -- the law of the first coordinate
  have hlaw : ∀ x : ℕ → ℝ, (Measure.pi fun _ : Unit => (Measure.pi fun j : Fin n => noisy (.laplace b (l1Sens l0 linf)) (x j)).map (padded n)).map
      (fun u : Unit → ℕ → ℝ => u () 0) = noisy (.laplace b (l1Sens l0 linf)) (x 0) := by
    intro x
    have hp' : IsProbabilityMeasure ((Measure.pi fun j : Fin n => noisy (.laplace b (l1Sens l0 linf)) (x j)).map (padded n)) :=
      Measure.isProbabilityMeasure_map (measurable_padded n).aemeasurable
    have e1 := (measurePreserving_eval (fun _ : Unit => (Measure.pi fun j : Fin n => noisy (.laplace b (l1Sens l0 linf)) (x j)).map (padded n))
      ()).map_eq
    have e2 := (measurePreserving_eval (fun j : Fin n => noisy (.laplace b (l1Sens l0 linf)) (x j)) ⟨0, hn0⟩).map_eq
    have e3 : (fun u : Unit → ℕ → ℝ => u () 0) = (fun u : ℕ → ℝ => u 0) ∘ Function.eval () := rfl
    rw [e3, ← Measure.map_map (measurable_pi_apply (0 : ℕ)) (measurable_pi_apply ()), e1,
      Measure.map_map (measurable_pi_apply (0 : ℕ)) (measurable_padded n)]
    have e4 : (fun u : ℕ → ℝ => u 0) ∘ padded n = Function.eval (⟨0, hn0⟩ : Fin n) := by
      funext u
      simp [padded, hn0]
    rw [e4, e2]
  rw [hlaw, hlaw, hw M hp.norm_nonneg le_rfl, hw 0 le_rfl hp.norm_nonneg] at h
  have h1 := h {v | (M : ℝ) / 2 ≤ v} measurableSet_Ici
  have t1 := laplace_tail hb (t := (M : ℝ) / 2) (by positivity) ((0 : ℚ) : ℝ) (l1Sens l0 linf)
  have t2 := laplace_lower_tail hb (t := (M : ℝ) / 2) (by positivity) (M : ℝ) (l1Sens l0 linf)
  rw [Rat.cast_zero, zero_add] at t1
  rw [show (M : ℝ) - M / 2 = M / 2 by ring] at t2
  rw [Rat.cast_zero, t1] at h1
  have h2 : 1 ≤ noisy (.laplace b (l1Sens l0 linf)) (M : ℝ) {v | (M : ℝ) / 2 ≤ v} + ENNReal.ofReal (Real.exp (-((M : ℝ) / 2) / b) / 2) := by
    rw [← t2, ← measure_univ (μ := noisy (.laplace b (l1Sens l0 linf)) (M : ℝ))]
    refine le_trans (measure_mono ?_) (measure_union_le _ _)
    intro v _
    rcases le_total ((M : ℝ) / 2) v with h | h
    · exact Or.inl h
    · exact Or.inr h
  have h3 := h2.trans (add_le_add h1 le_rfl)
  have hpos := Real.exp_pos (-((M : ℝ) / 2) / b)
  have hpos' := Real.exp_pos e'
  rw [← ENNReal.ofReal_mul hpos'.le, ← ENNReal.ofReal_add (by positivity) hd0, ← ENNReal.ofReal_add (by positivity) (by positivity),
    ← ENNReal.ofReal_one, ENNReal.ofReal_le_ofReal_iff (by positivity)] at h3
  -- the tail is small
  have hy : (1 + Real.exp e') / (1 - d') < (M : ℝ) / 2 / b := by
    rw [lt_div_iff₀ hb]
    nlinarith
  have hexp : Real.exp (-((M : ℝ) / 2) / b) * ((M : ℝ) / 2 / b + 1) ≤ 1 := by
    have := Real.add_one_le_exp ((M : ℝ) / 2 / b)
    calc Real.exp (-((M : ℝ) / 2) / b) * ((M : ℝ) / 2 / b + 1) ≤ Real.exp (-((M : ℝ) / 2) / b) * Real.exp ((M : ℝ) / 2 / b) :=
          mul_le_mul_of_nonneg_left this hpos.le
      _ = 1 := by rw [← Real.exp_add, neg_div, neg_add_cancel, Real.exp_zero]
  rw [div_lt_iff₀ (by linarith)] at hy
  generalize Real.exp (-((M : ℝ) / 2) / b) = t at *
  generalize (M : ℝ) / 2 / b = y at *
  have hy0 : 0 < y := by
    by_contra hneg
    push Not at hneg
    nlinarith
  have k1 : t * (1 + Real.exp e') < t * (y * (1 - d')) := mul_lt_mul_of_pos_left hy hpos
  have k2 : t * y ≤ 1 := by nlinarith
  have k3 : t * (y * (1 - d')) ≤ 1 - d' := by nlinarith
  nlinarith

/-! ### Pipelines -/

/-- A call with the metric VECTOR_SUM, private partitions, and noise which covers the norm; `vec o` reads the arrays of its values. -/
structure VectorCall (vec : ℕ → V → List ℚ) (c : CustomCall R K V) (o l0 linf n : ℕ) (M : ℚ) (kind : NormKind) : Prop where
  metrics : c.params.metrics = [.vectorSum]
  object : c.combiners = [o]
  params : VectorParams c.params l0 linf n M kind
  shape : ∀ v, (vec o v).length = n
  covered : VectorCovered (vec o) c.params.noiseKind linf n M kind
  weight : 0 < c.params.budgetWeight
  noTotal : c.params.maxContributions = none
  noThresholding : c.params.postThresholding = false
  hidden : c.partitions = none
  notFiltered : c.params.publicFiltered = false

/-- A step of C73, or such a call. -/
def XStep.VectorSupported (vec : ℕ → V → List ℚ) : XStep R K V → Prop
  | .step s => s.Supported
  | .custom c => ∃ o l0 linf n M kind, VectorCall vec c o l0 linf n M kind

theorem XStep.VectorSupported.supported {lib : Library} (hlib : lib.Contract) {vec : ℕ → V → List ℚ} {c : XStep R K V}
    (h : c.VectorSupported vec) : c.Supported fun o => vectorClass lib.sigma (vec o) := by
  cases c with
  | step s => exact h
  | custom c =>
    obtain ⟨o, l0, linf, n, M, kind, h⟩ := h
    refine ⟨Or.inr ⟨l0, linf, h.params.l0_pos, h.params.linf_pos, h.noTotal, h.params.partitions, h.params.perPartition⟩, h.weight,
      h.noThresholding, fun _ => ⟨h.noTotal, h.notFiltered⟩, by rw [h.object]; simp, ?_, ?_⟩
    · intro x _ r hr
      simp only [vectorClass, List.mem_singleton] at hr
      subst hr
      exact h.weight
    · intro x hx
      rw [h.object, List.mem_singleton] at hx
      subst hx
      exact C79_vector_sum_is_private lib.sigma hlib.gaussian _ h.params h.covered

/-- **C79.**  A pipeline of any `aggregate` calls with VECTOR_SUM over private partitions whose noise covers the norm
(`VectorCovered`), and any supported `aggregate`, `select_partitions` and `add_dp_noise` calls, on one naive accountant with total
budget `(e, d)` is `(e, d)`-differentially private. -/
theorem C79_vector_pipeline_is_differentially_private (fmt : ℚ → String) (lib : Library) (hlib : lib.Contract)
    (vec : ℕ → V → List ℚ) {e d : ℚ} {num ws s0} (h0 : Budget.init e d num ws = .ok s0) (cs : List (XStep R K V))
    (hs : ∀ c ∈ cs, c.VectorSupported vec) (hn : (cs.flatMap XStep.objects).Nodup) (hd : 0 < d)
    {st bs ops st'} (hp : planX (fun o => vectorClass lib.sigma (vec o)) fmt [] st cs = .ok (bs, ops, st'))
    (hc : (Budget.step (Budget.run s0 ops).1 .compute).2 = .unit)
    {Ω : Type} [MeasurableSpace Ω] (μ : Measure Ω) [IsProbabilityMeasure μ] (env : Ω → ℕ → Env K)
    (henv : ∀ ω j, (env ω j).Lawful) (pid : R → P) (data : List R) (u : P) (hu : ∀ c ∈ cs, c.Promised pid data u) :
    let s := specOf (Budget.step (Budget.run s0 ops).1 .compute).1
    let cls := fun o => vectorClass lib.sigma (vec o)
    ∃ L L' : Ω → List (List (Candidate K) × List (CustomCandidate K (ℕ → ℝ))),
      (∀ ω, evalX cls lib.sigma s st' (env ω) pid data 0 cs bs = .ok (L ω) ∧
        evalX cls lib.sigma s st' (env ω) pid (data.filter fun r => pid r ≠ u) 0 cs bs = .ok (L' ω)) ∧
      ∀ (U : Finset (ℕ × K)) (S : Finset (ℕ × ℕ)) (T : Finset ℕ), ∀ B, MeasurableSet B →
        ∫⁻ ω, observedX lib 0 U S T (L ω) B ∂μ
          ≤ ENNReal.ofReal (Real.exp e) * ∫⁻ ω, observedX lib 0 U S T (L' ω) B ∂μ + ENNReal.ofReal d ∧
        ∫⁻ ω, observedX lib 0 U S T (L' ω) B ∂μ
          ≤ ENNReal.ofReal (Real.exp e) * ∫⁻ ω, observedX lib 0 U S T (L ω) B ∂μ + ENNReal.ofReal d := by
  intro s cls
  obtain ⟨L, L', h1, h2⟩ := C74_custom_pipeline_is_differentially_private fmt lib hlib cls 0 h0 cs
    (fun c hc => (hs c hc).supported hlib) hn (fun _ => hd) hp hc μ env henv pid data u hu
  exact ⟨L, L', h1, fun U S T => (h2 U S T).2⟩

/-! ### Examples -/

/-- Sums of arrays of length 3 per day: at most 2 days and 4 arrays per day. -/
def exampleVector (noise : NoiseKind) (kind : NormKind) (M : ℚ) : Params where
  metrics := [.vectorSum]
  noiseKind := noise
  maxPartitions := some 2
  maxPerPartition := some 4
  vectorNormKind := some kind
  vectorMaxNorm := some M
  vectorSize := some 3

theorem exampleVector_params (noise : NoiseKind) (kind : NormKind) (M : ℚ) (hM : 0 ≤ M) (hk : kind ≠ .l0) :
    VectorParams (exampleVector noise kind M) 2 4 3 M kind :=
  ⟨rfl, rfl, rfl, rfl, rfl, by norm_num, by norm_num, by norm_num, hM, hk⟩

/-- L2 norm 3: the spread `6 * sqrt 3` is at most 12. -/
theorem exampleVector_covered : VectorCovered (V := List ℚ) id .laplace 4 3 3 .l2 := by
  refine Or.inr (Or.inr ⟨rfl, ?_⟩)
  have h : Real.sqrt (3 : ℕ) ≤ 2 := by
    rw [Real.sqrt_le_left (by norm_num)]
    norm_num
  simp only [vectorSpread]
  push_cast at h ⊢
  linarith

example : (vectorClass exampleLibrary.sigma (id : List ℚ → List ℚ)).Private (exampleVector .laplace .l2 3) :=
  C79_vector_sum_is_private _ exampleLibrary_contract.gaussian _ (exampleVector_params _ _ _ (by norm_num) (by decide)) exampleVector_covered

/-- Gaussian noise, L1 norm 2. -/
example : (vectorClass exampleLibrary.sigma (id : List ℚ → List ℚ)).Private (exampleVector .gaussian .l1 2) :=
  C79_vector_sum_is_private _ exampleLibrary_contract.gaussian _ (exampleVector_params _ _ _ (by norm_num) (by decide))
    (Or.inl (by norm_num))

/-- Arrays of length 3 with coordinates 0 and 1, clipped to 1000 per coordinate. -/
example : (vectorClass exampleLibrary.sigma (fun v : Bool × Bool × Bool => [if v.1 then 1 else 0, if v.2.1 then 1 else 0,
    if v.2.2 then 1 else 0])).Private (exampleVector .gaussian .linf 1000) :=
  C79_vector_sum_is_private _ exampleLibrary_contract.gaussian _ (exampleVector_params _ _ _ (by norm_num) (by decide))
    (Or.inr (Or.inl ⟨rfl, by
      intro v x hx
      simp only [List.mem_cons, List.not_mem_nil, or_false] at hx
      rcases hx with rfl | rfl | rfl <;> split <;> norm_num⟩))

/-- Norm Linf 10: the loss is five times the epsilon, and the promise is broken. -/
example : ¬ (vectorClass exampleLibrary.sigma (id : List ℚ → List ℚ)).Private (exampleVector .laplace .linf 10) := by
  rw [C79_private_iff _ exampleLibrary_contract.gaussian (exampleVector_params _ _ _ (by norm_num) (by decide)) rfl rfl]
  norm_num [vectorSpread]

example := C79_loss_is_attained exampleLibrary.sigma (exampleVector_params .laplace .linf 10 (by norm_num) (by decide)) rfl rfl (e := 1)
  (d := 0) one_pos

example : ∃ M : ℚ, VectorParams (exampleVector .laplace .l1 M) 2 4 3 M .l1 ∧ ∀ sigma, ∃ other user : List ℚ,
    other.length = 3 ∧ user.length = 3 ∧ UserEntries (exampleVector .laplace .l1 M) true [((), [user])] ∧
      ¬ Close (K := Unit) 100 (99 / 100)
        (fun _ => (vectorClass sigma id).compute (exampleVector .laplace .l1 M) [(1, 0)]
          ((vectorClass sigma id).total (exampleVector .laplace .l1 M) [[user], [other]]))
        (fun _ => (vectorClass sigma id).compute (exampleVector .laplace .l1 M) [(1, 0)]
          ((vectorClass sigma id).total (exampleVector .laplace .l1 M) [[other]])) := by
  obtain ⟨M0, h⟩ := C79_large_norms_are_not_private 2 4 3 (by norm_num) (by norm_num) (by norm_num) (e := 1) one_pos 100
    (d' := 99 / 100) (by norm_num) (by norm_num)
  have hp := exampleVector_params .laplace .l1 (max M0 0) (le_max_right _ _) (by decide)
  exact ⟨max M0 0, hp, fun sigma => h _ (le_max_left _ _) _ _ hp rfl rfl sigma 0⟩

/-- The pipeline: two sums of arrays for private days, and the steps of C73's example. -/
def exampleVectors : List (XStep (ℕ × ℕ × ℚ) ℕ (Fin 3 → ℚ)) :=
  .custom ⟨exampleVector .laplace .l2 3, none, fun r => r.2.1, fun r => ![r.2.2, 1, 0], [0]⟩ ::
  .custom ⟨exampleVector .gaussian .l1 2, none, fun r => r.2.1, fun r => ![r.2.2, r.2.2, 1], [1]⟩ ::
  exampleSteps.map .step

theorem exampleVectors_supported : ∀ c ∈ exampleVectors, c.VectorSupported fun _ v => List.ofFn v := by
  intro c hc
  simp only [exampleVectors, List.mem_cons, List.mem_map] at hc
  rcases hc with rfl | rfl | ⟨c, hc, rfl⟩
  · exact ⟨0, 2, 4, 3, 3, .l2, ⟨rfl, rfl, exampleVector_params _ _ _ (by norm_num) (by decide), fun v => by simp,
      Or.inr (Or.inr (exampleVector_covered.resolve_left (by norm_num) |>.resolve_left (by simp))), by norm_num [exampleVector], rfl, rfl, rfl,
      rfl⟩⟩
  · exact ⟨1, 2, 4, 3, 2, .l1, ⟨rfl, rfl, exampleVector_params _ _ _ (by norm_num) (by decide), fun v => by simp,
      Or.inl (by norm_num), by norm_num [exampleVector], rfl, rfl, rfl, rfl⟩⟩
  · simp only [exampleSteps, List.mem_cons, List.mem_append, List.mem_map, List.not_mem_nil, or_false] at hc
    rcases hc with rfl | ⟨c, hc, rfl⟩ | rfl
    · exact ⟨⟨2, rfl, by norm_num⟩, ⟨1, rfl, by norm_num⟩, by norm_num⟩
    · exact exampleCalls_supported c hc
    · exact ⟨⟨2, rfl, by norm_num⟩, ⟨1, rfl, by norm_num⟩, by norm_num⟩

/-- The hypotheses of C79 hold for this pipeline with total budget (1, 1/1000), on every dataset, for every user. -/
example (fmt : ℚ → String) (data : List (ℕ × ℕ × ℚ)) (u : ℕ) :
    ∃ s0 bs ops st', Budget.init 1 (1 / 1000) none none = .ok s0 ∧
      planX (fun _ => vectorClass exampleLibrary.sigma fun v => List.ofFn v) fmt [] (fun _ => none) exampleVectors = .ok (bs, ops, st') ∧
      let s := specOf (Budget.step (Budget.run s0 ops).1 .compute).1
      let cls := fun _ => vectorClass exampleLibrary.sigma fun v => List.ofFn v
      ∃ L L' : Unit → List (List (Candidate ℕ) × List (CustomCandidate ℕ (ℕ → ℝ))),
        (∀ ω, evalX cls exampleLibrary.sigma s st' (fun _ => exampleEnv firstRng) Prod.fst data 0 exampleVectors bs = .ok (L ω) ∧
          evalX cls exampleLibrary.sigma s st' (fun _ => exampleEnv firstRng) Prod.fst
            (data.filter fun r => r.1 ≠ u) 0 exampleVectors bs = .ok (L' ω)) ∧
        ∀ (U : Finset (ℕ × ℕ)) (S : Finset (ℕ × ℕ)) (T : Finset ℕ), ∀ A, MeasurableSet A →
          observedX exampleLibrary 0 U S T (L ()) A
            ≤ ENNReal.ofReal (Real.exp 1) * observedX exampleLibrary 0 U S T (L' ()) A + ENNReal.ofReal (1 / 1000) := by
  obtain ⟨s0, h0⟩ : ∃ s0, Budget.init 1 (1 / 1000) none none = .ok s0 := by
    norm_num [Budget.init]
  obtain ⟨bs, ops, st', hp, -, hc⟩ := C74_supported_pipeline_runs fmt
    (fun _ => vectorClass exampleLibrary.sigma fun v => List.ofFn v) exampleVectors
    (fun c hc => (exampleVectors_supported c hc).supported exampleLibrary_contract) h0
    (fun _ => by norm_num) ⟨by simp, by intro l hl; cases hl⟩ fun _ => none
  have hn : (exampleVectors.flatMap XStep.objects).Nodup := by
    have : exampleVectors.flatMap XStep.objects = [0, 1] := rfl
    rw [this]; decide
  refine ⟨s0, bs, ops, st', h0, hp, ?_⟩
  obtain ⟨L, L', h1, h2⟩ := C79_vector_pipeline_is_differentially_private fmt exampleLibrary exampleLibrary_contract
    (fun _ v => List.ofFn v) h0 exampleVectors exampleVectors_supported hn (by norm_num) hp hc (Measure.dirac ())
    (fun _ _ => exampleEnv firstRng) (fun _ _ => exampleEnv_lawful _) Prod.fst data u (by
      intro c hc
      simp only [exampleVectors, List.mem_cons, List.mem_map] at hc
      rcases hc with rfl | rfl | ⟨c, hc, rfl⟩
      · exact ⟨⟨fun h => by simp [exampleVector] at h, fun h => by simp [exampleVector] at h⟩, fun h => by simp [exampleVector] at h⟩
      · exact ⟨⟨fun h => by simp [exampleVector] at h, fun h => by simp [exampleVector] at h⟩, fun h => by simp [exampleVector] at h⟩
      · simp only [exampleSteps, List.mem_cons, List.mem_append, List.mem_map, List.not_mem_nil, or_false] at hc
        rcases hc with rfl | ⟨c, hc, rfl⟩ | rfl
        · exact usersPerDay_sensitive _ _ data u
        · show Call.Promised Prod.fst data u c
          simp only [exampleCalls, List.mem_cons, List.not_mem_nil, or_false] at hc
          rcases hc with rfl | rfl | rfl | rfl
          · exact ⟨⟨fun h => by simp [examplePrivate] at h, fun h => by simp [examplePrivate] at h⟩,
              fun h => by simp [examplePrivate] at h⟩
          · exact ⟨⟨fun h => by simp [exampleThresholded] at h, fun h => by simp [exampleThresholded] at h⟩,
              fun h => by simp [exampleThresholded] at h⟩
          · exact ⟨⟨fun h => by simp [exampleVariance] at h, fun h => by simp [exampleVariance] at h⟩,
              fun h => by simp [exampleVariance] at h⟩
          · trivial
        · exact usersPerDay_sensitive _ _ data u)
  refine ⟨L, L', h1, fun U S T A hA => ?_⟩
  have := (h2 U S T A hA).1
  simpa using this

/-- The engine's requests for the first call of the pipeline. -/
example (fmt : ℚ → String) := C79_same_requests fmt exampleLibrary.sigma (fun (_ : ℕ) (v : Fin 3 → ℚ) => List.ofFn v)
  (⟨exampleVector .laplace .l2 3, none, fun r => r.2.1, fun r => ![r.2.2, 1, 0], [0]⟩ : CustomCall (ℕ × ℕ × ℚ) ℕ (Fin 3 → ℚ)) 0
  rfl rfl rfl rfl rfl [⟨.laplace, 1⟩] (fun _ => none) fun _ => 0

/-- L2 norm 20: at most ten times the epsilon over the square root of 3. -/
example (X Y : ℕ → List (List (Fin 3 → ℚ))) (E : List (ℕ × List (Fin 3 → ℚ))) (hE : UserEntries (exampleVector .laplace .l2 20) true E)
    (hXY : ∀ k, (X k).Perm (valuesOf k E ++ Y k)) :=
  C79_actual_loss exampleLibrary.sigma (fun v => List.ofFn v) (exampleVector_params .laplace .l2 20 (by norm_num) (by decide)) rfl
    (e := 1) (d := 0) one_pos X Y E hE hXY (vectorSpread 3 (20 : ℚ) .l2 / ((4 : ℕ) * (3 : ℕ)))
    (by simp only [vectorSpread]; positivity) (Or.inl rfl)

/-- The release of a sum with Laplace noise of scale 2. -/
example : ∃ out : (Fin 2 → ℝ) → List ℝ,
    (∀ t, releaseVector (fun j x => x + padded 2 t j) 5 .l1 (.vec [3, -4]) = .ok (out t) ∧ (out t).length = 2) ∧
    vectorLaw (.laplace 2 1) 2 5 .l1 (fun j => if j = 0 then 3 else -4)
      = (Measure.pi fun _ : Fin 2 => noiseLaw (.laplace 2 1)).map fun t j => (out t).getD j 0 := by
  have hp : IsProbabilityMeasure (noiseLaw (.laplace 2 1)) := by
    have := noisy_laplace_prob (b := 2) two_pos 1 0
    simp only [noisy, zero_add, Measure.map_id'] at this
    exact this
  obtain ⟨out, h1, h2⟩ := C79_same_release (.laplace 2 1) 2 5 (by norm_num) .l1 (by decide) fun j => if j = 0 then 3 else -4
  exact ⟨out, fun t => by simpa using h1 t, h2⟩

end PDP.EndToEnd
