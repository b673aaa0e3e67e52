import Mathlib.MeasureTheory.Constructions.Pi
import Mathlib.MeasureTheory.Integral.Layercake
import Mathlib.Analysis.SpecialFunctions.Exp

/-!
# Approximate differential privacy: composition and post-processing

Standard facts about `(ε, δ)`-indistinguishable probability measures, used for C62.
-/

namespace PDP.Approx

open MeasureTheory

variable {X Y : Type} [MeasurableSpace X] [MeasurableSpace Y]

/-- Specification: no event is more likely under `μ` than `exp e` times its probability under `ν`, plus `d`. -/
def Indist (e d : ℝ) (μ ν : Measure X) : Prop :=
  ∀ A, MeasurableSet A → μ A ≤ ENNReal.ofReal (Real.exp e) * ν A + ENNReal.ofReal d

theorem Indist.refl (μ : Measure X) : Indist 0 0 μ μ := by
  intro A _
  simp

theorem Indist.mono {e d e' d' : ℝ} {μ ν : Measure X} (h : Indist e d μ ν) (he : e ≤ e') (hd : d ≤ d') :
    Indist e' d' μ ν := by
  intro A hA
  refine (h A hA).trans ?_
  gcongr

/-- Post-processing. -/
theorem Indist.map {e d : ℝ} {μ ν : Measure X} (h : Indist e d μ ν) {f : X → Y} (hf : Measurable f) :
    Indist e d (μ.map f) (ν.map f) := by
  intro A hA
  rw [Measure.map_apply hf hA, Measure.map_apply hf hA]
  exact h _ (hf hA)

/-- Tests with values in `[0, 1]` instead of events. -/
theorem Indist.lintegral {e d : ℝ} {μ ν : Measure X} (h : Indist e d μ ν) {f : X → ENNReal} (hf : Measurable f)
    (h1 : ∀ x, f x ≤ 1) :
    ∫⁻ x, f x ∂μ ≤ ENNReal.ofReal (Real.exp e) * ∫⁻ x, f x ∂ν + ENNReal.ofReal d := by
  have hfin : ∀ x, f x ≠ ⊤ := fun x => ((h1 x).trans_lt ENNReal.one_lt_top).ne
  have hm : Measurable fun x => (f x).toReal := hf.ennreal_toReal
  have key : ∀ ρ : Measure X, ∫⁻ x, f x ∂ρ = ∫⁻ t in Set.Ioo (0 : ℝ) 1, ρ {x | t < (f x).toReal} := by
    intro ρ
    have : ∫⁻ x, f x ∂ρ = ∫⁻ x, ENNReal.ofReal (f x).toReal ∂ρ := by
      apply lintegral_congr
      intro x
      rw [ENNReal.ofReal_toReal (hfin x)]
    rw [this, lintegral_eq_lintegral_meas_lt ρ (Filter.Eventually.of_forall fun x => ENNReal.toReal_nonneg) hm.aemeasurable]
    rw [← Set.Ioo_union_Ici_eq_Ioi (show (0 : ℝ) < 1 by norm_num), lintegral_union measurableSet_Ici
      (by rw [Set.disjoint_left]; intro t h1 h2; exact absurd h1.2 (not_lt.mpr h2))]
    have h0 : ∫⁻ t in Set.Ici (1 : ℝ), ρ {x | t < (f x).toReal} = 0 := by
      rw [setLIntegral_congr_fun measurableSet_Ici (g := fun _ => 0)]
      · simp
      · intro t ht
        have : {x | t < (f x).toReal} = ∅ := by
          ext x
          simp only [Set.mem_ofPred_eq, Set.mem_empty_iff_false, iff_false, not_lt]
          exact (ENNReal.toReal_mono ENNReal.one_ne_top (h1 x)).trans (by simpa using ht)
        simp only [this, measure_empty]
    rw [h0, add_zero]
  rw [key μ, key ν]
  calc ∫⁻ t in Set.Ioo (0 : ℝ) 1, μ {x | t < (f x).toReal}
      ≤ ∫⁻ t in Set.Ioo (0 : ℝ) 1, (ENNReal.ofReal (Real.exp e) * ν {x | t < (f x).toReal} + ENNReal.ofReal d) :=
        lintegral_mono fun t => h _ (measurableSet_lt measurable_const hm)
    _ = ENNReal.ofReal (Real.exp e) * (∫⁻ t in Set.Ioo (0 : ℝ) 1, ν {x | t < (f x).toReal}) + ENNReal.ofReal d := by
        rw [lintegral_add_right _ measurable_const, lintegral_const_mul' _ _ ENNReal.ofReal_ne_top]
        simp

/-- Composition of two independent releases. -/
theorem Indist.prod {e₁ d₁ e₂ d₂ : ℝ} {μ₁ ν₁ : Measure X} {μ₂ ν₂ : Measure Y} [IsProbabilityMeasure μ₁] [SFinite ν₁]
    [IsProbabilityMeasure μ₂] [SFinite ν₂] (h₁ : Indist e₁ d₁ μ₁ ν₁) (h₂ : Indist e₂ d₂ μ₂ ν₂) (hd₁ : 0 ≤ d₁)
    (hd₂ : 0 ≤ d₂) : Indist (e₁ + e₂) (d₁ + d₂) (μ₁.prod μ₂) (ν₁.prod ν₂) := by
  intro A hA
  rw [Measure.prod_apply hA, Measure.prod_apply hA]
  set E₁ := ENNReal.ofReal (Real.exp e₁)
  set E₂ := ENNReal.ofReal (Real.exp e₂)
  have hms : Measurable fun x => ν₂ (Prod.mk x ⁻¹' A) := measurable_measure_prodMk_left hA
  have hmm : Measurable fun x => min 1 (E₂ * ν₂ (Prod.mk x ⁻¹' A)) := measurable_const.min (hms.const_mul _)
  have step : ∀ x, μ₂ (Prod.mk x ⁻¹' A) ≤ min 1 (E₂ * ν₂ (Prod.mk x ⁻¹' A)) + ENNReal.ofReal d₂ := by
    intro x
    have a1 := h₂ _ (measurable_prodMk_left (x := x) hA)
    have a2 : μ₂ (Prod.mk x ⁻¹' A) ≤ 1 := prob_le_one
    rcases le_total 1 (E₂ * ν₂ (Prod.mk x ⁻¹' A)) with h | h
    · rw [min_eq_left h]; exact a2.trans le_self_add
    · rw [min_eq_right h]; exact a1
  calc ∫⁻ x, μ₂ (Prod.mk x ⁻¹' A) ∂μ₁
      ≤ ∫⁻ x, (min 1 (E₂ * ν₂ (Prod.mk x ⁻¹' A)) + ENNReal.ofReal d₂) ∂μ₁ := lintegral_mono step
    _ = ∫⁻ x, min 1 (E₂ * ν₂ (Prod.mk x ⁻¹' A)) ∂μ₁ + ENNReal.ofReal d₂ := by
        rw [lintegral_add_right _ measurable_const]; simp
    _ ≤ E₁ * ∫⁻ x, min 1 (E₂ * ν₂ (Prod.mk x ⁻¹' A)) ∂ν₁ + ENNReal.ofReal d₁ + ENNReal.ofReal d₂ := by
        gcongr
        exact h₁.lintegral hmm fun x => min_le_left _ _
    _ ≤ E₁ * ∫⁻ x, E₂ * ν₂ (Prod.mk x ⁻¹' A) ∂ν₁ + ENNReal.ofReal d₁ + ENNReal.ofReal d₂ := by
        gcongr
        exact min_le_right _ _
    _ = ENNReal.ofReal (Real.exp (e₁ + e₂)) * ∫⁻ x, ν₂ (Prod.mk x ⁻¹' A) ∂ν₁ + ENNReal.ofReal (d₁ + d₂) := by
        rw [lintegral_const_mul _ hms, ← mul_assoc, ← ENNReal.ofReal_mul (Real.exp_nonneg _), ← Real.exp_add,
          ENNReal.ofReal_add hd₁ hd₂, add_assoc]

/-! ### Families of independent releases -/

/-- Renaming the members of a family. -/
theorem Indist.reindex {ι κ : Type} [Fintype ι] [Fintype κ] (f : ι ≃ κ) {e d : ℝ} {μ ν : κ → Measure X}
    [∀ i, IsProbabilityMeasure (μ i)] [∀ i, IsProbabilityMeasure (ν i)]
    (h : Indist e d (Measure.pi fun i => μ (f i)) (Measure.pi fun i => ν (f i))) :
    Indist e d (Measure.pi μ) (Measure.pi ν) := by
  have := h.map (MeasurableEquiv.piCongrLeft (fun _ : κ => X) f).measurable
  rw [Measure.pi_map_piCongrLeft f μ, Measure.pi_map_piCongrLeft f ν] at this
  exact this

/-- Composition of two groups of a family. -/
theorem Indist.split {ι : Type} [Fintype ι] (p : ι → Prop) [DecidablePred p] {e₁ d₁ e₂ d₂ : ℝ} {μ ν : ι → Measure X}
    [∀ i, IsProbabilityMeasure (μ i)] [∀ i, IsProbabilityMeasure (ν i)]
    (h₁ : Indist e₁ d₁ (Measure.pi fun i : {i // p i} => μ i) (Measure.pi fun i : {i // p i} => ν i))
    (h₂ : Indist e₂ d₂ (Measure.pi fun i : {i // ¬ p i} => μ i) (Measure.pi fun i : {i // ¬ p i} => ν i))
    (hd₁ : 0 ≤ d₁) (hd₂ : 0 ≤ d₂) : Indist (e₁ + e₂) (d₁ + d₂) (Measure.pi μ) (Measure.pi ν) := by
  have h := (h₁.prod h₂ hd₁ hd₂).map (MeasurableEquiv.piEquivPiSubtypeProd (fun _ : ι => X) p).symm.measurable
  have e : ∀ ρ : ι → Measure X, (∀ i, IsProbabilityMeasure (ρ i)) →
      ((Measure.pi fun i : {i // p i} => ρ i).prod (Measure.pi fun i : {i // ¬ p i} => ρ i)).map
        (MeasurableEquiv.piEquivPiSubtypeProd (fun _ : ι => X) p).symm = Measure.pi ρ := by
    intro ρ hρ
    exact ((measurePreserving_piEquivPiSubtypeProd ρ p).symm _).map_eq
  rw [e μ inferInstance, e ν inferInstance] at h
  exact h

/-- Composition of any number of groups: members outside of all groups are the same. -/
theorem Indist.groups {G : Type} [DecidableEq G] (gs : List G) (hgs : gs.Nodup) (e d : G → ℝ) (hd : ∀ x ∈ gs, 0 ≤ d x) :
    ∀ {ι : Type} [Fintype ι] (g : ι → G) (μ ν : ι → Measure X) [∀ i, IsProbabilityMeasure (μ i)]
      [∀ i, IsProbabilityMeasure (ν i)], (∀ i, g i ∉ gs → μ i = ν i) →
      (∀ x ∈ gs, Indist (e x) (d x) (Measure.pi fun i : {i // g i = x} => μ i) (Measure.pi fun i : {i // g i = x} => ν i)) →
      Indist (gs.map e).sum (gs.map d).sum (Measure.pi μ) (Measure.pi ν) := by
  induction gs with
  | nil =>
    intro ι _ g μ ν _ _ hs _
    have : μ = ν := funext fun i => hs i (by simp)
    subst this
    exact Indist.refl _
  | cons x gs ih =>
    intro ι _ g μ ν _ _ hs h
    rw [List.nodup_cons] at hgs
    rw [List.map_cons, List.map_cons, List.sum_cons, List.sum_cons]
    refine Indist.split (fun i => g i = x) (h x (by simp)) ?_ (hd x (by simp))
      (List.sum_nonneg fun y hy => by
        obtain ⟨z, hz, rfl⟩ := List.mem_map.mp hy
        exact hd z (by simp [hz]))
    refine ih hgs.2 (fun y hy => hd y (by simp [hy])) (fun i : {i // ¬ g i = x} => g i) (fun i => μ i) (fun i => ν i) ?_ ?_
    · intro i hi
      refine hs i ?_
      rw [List.mem_cons, not_or]
      exact ⟨i.2, hi⟩
    · intro y hy
      have hyx : y ≠ x := fun hh => hgs.1 (hh ▸ hy)
      let f : {i // g i = y} ≃ {i : {i // ¬ g i = x} // g i = y} :=
        { toFun := fun i => ⟨⟨i.1, by rw [i.2]; exact hyx⟩, i.2⟩
          invFun := fun i => ⟨i.1.1, i.2⟩
          left_inv := fun _ => rfl
          right_inv := fun _ => rfl }
      exact Indist.reindex f (μ := fun i : {i : {i // ¬ g i = x} // g i = y} => μ i.1.1)
        (ν := fun i : {i : {i // ¬ g i = x} // g i = y} => ν i.1.1) (h y (by simp [hy]))

end PDP.Approx
