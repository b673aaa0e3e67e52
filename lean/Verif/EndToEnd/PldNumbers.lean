import Verif.EndToEnd.PldModel
import Verif.EndToEnd.CallsBudget

/-! # Numbers of a call with a PLD accountant: noise with the granted standard deviation -/

set_option linter.unusedSectionVars false

namespace PDP.EndToEnd

open PDP PDP.Engine MeasureTheory
open PDP.Engine.Mechanism (Additive)
open PDP.Budget (State Op MechType)
open PDP.Budget.Pld (PldLib)
open PDP.Approx (Indist)

variable {R P K : Type} [DecidableEq P] [DecidableEq K]

/-! ### Dominated families -/

theorem PldContract.reindex {pl : PldLib} (C : PldContract pl) {p : pl.PLD} {ι κ : Type} [Fintype ι] [Fintype κ] (f : ι ≃ κ)
    {μ ν : κ → Measure ℝ} [∀ i, IsProbabilityMeasure (μ i)] [∀ i, IsProbabilityMeasure (ν i)]
    (h : C.Dominates p (Measure.pi fun i => μ (f i)) (Measure.pi fun i => ν (f i))) :
    C.Dominates p (Measure.pi μ) (Measure.pi ν) := by
  have := C.map p _ _ _ (MeasurableEquiv.piCongrLeft (fun _ : κ => ℝ) f).measurable h
  rw [Measure.pi_map_piCongrLeft f μ, Measure.pi_map_piCongrLeft f ν] at this
  exact this

theorem PldContract.split {pl : PldLib} (C : PldContract pl) {p q : pl.PLD} {ι : Type} [Fintype ι] (r : ι → Prop)
    [DecidablePred r] {μ ν : ι → Measure ℝ} [∀ i, IsProbabilityMeasure (μ i)] [∀ i, IsProbabilityMeasure (ν i)]
    (h₁ : C.Dominates p (Measure.pi fun i : {i // r i} => μ i) (Measure.pi fun i : {i // r i} => ν i))
    (h₂ : C.Dominates q (Measure.pi fun i : {i // ¬ r i} => μ i) (Measure.pi fun i : {i // ¬ r i} => ν i)) :
    C.Dominates (pl.compose p q) (Measure.pi μ) (Measure.pi ν) := by
  have h := C.map _ _ _ _ (MeasurableEquiv.piEquivPiSubtypeProd (fun _ : ι => ℝ) r).symm.measurable
    (C.compose p q _ _ _ _ h₁ h₂)
  have e : ∀ ρ : ι → Measure ℝ, (∀ i, IsProbabilityMeasure (ρ i)) →
      ((Measure.pi fun i : {i // r i} => ρ i).prod (Measure.pi fun i : {i // ¬ r i} => ρ i)).map
        (MeasurableEquiv.piEquivPiSubtypeProd (fun _ : ι => ℝ) r).symm = Measure.pi ρ := by
    intro ρ hρ
    exact ((measurePreserving_piEquivPiSubtypeProd ρ r).symm _).map_eq
  rw [e μ inferInstance, e ν inferInstance] at h
  exact h

/-- A family in groups `0, …, n`, each dominated, is dominated by the composition in this order. -/
theorem PldContract.groups {pl : PldLib} (C : PldContract pl) (p : pl.PLD) (ps : List pl.PLD) :
    ∀ {ι : Type} [Fintype ι] (g : ι → ℕ) (μ ν : ι → Measure ℝ) [∀ i, IsProbabilityMeasure (μ i)]
      [∀ i, IsProbabilityMeasure (ν i)], (∀ i, g i < ps.length + 1) →
      (∀ j q, (p :: ps)[j]? = some q →
        C.Dominates q (Measure.pi fun i : {i // g i = j} => μ i) (Measure.pi fun i : {i // g i = j} => ν i)) →
      C.Dominates (ps.foldl pl.compose p) (Measure.pi μ) (Measure.pi ν) := by
  induction ps using List.reverseRecOn with
  | nil =>
    intro ι _ g μ ν _ _ hg h
    have h0 := h 0 p rfl
    let f : {i // g i = 0} ≃ ι :=
      { toFun := fun i => i.1
        invFun := fun i => ⟨i, by have := hg i; simp at this; exact this⟩
        left_inv := fun _ => rfl
        right_inv := fun _ => rfl }
    exact C.reindex f h0
  | append_singleton ps q ih =>
    intro ι _ g μ ν _ _ hg h
    rw [List.foldl_append]
    simp only [List.foldl_cons, List.foldl_nil]
    refine C.split (fun i => g i < ps.length + 1) ?_ ?_
    · refine ih (fun i : {i // g i < ps.length + 1} => g i) (fun i => μ i) (fun i => ν i) (fun i => i.2) ?_
      intro j q' hj
      have hj' : j < ps.length + 1 := by
        have := (List.getElem?_eq_some_iff.mp hj).1
        simpa using this
      have := h j q' (by
        rw [show p :: (ps ++ [q]) = (p :: ps) ++ [q] from rfl, List.getElem?_append_left (by simpa using hj')]
        exact hj)
      let f : {i // g i = j} ≃ {i : {i // g i < ps.length + 1} // g i = j} :=
        { toFun := fun i => ⟨⟨i.1, by rw [i.2]; exact hj'⟩, i.2⟩
          invFun := fun i => ⟨i.1.1, i.2⟩
          left_inv := fun _ => rfl
          right_inv := fun _ => rfl }
      exact C.reindex f (μ := fun i : {i : {i // g i < ps.length + 1} // g i = j} => μ i.1.1)
        (ν := fun i : {i : {i // g i < ps.length + 1} // g i = j} => ν i.1.1) this
    · have := h (ps.length + 1) q (by
        rw [show p :: (ps ++ [q]) = (p :: ps) ++ [q] from rfl, List.getElem?_append_right (by simp)]
        simp)
      let f : {i // g i = ps.length + 1} ≃ {i : ι // ¬ g i < ps.length + 1} :=
        { toFun := fun i => ⟨i.1, by rw [i.2]; omega⟩
          invFun := fun i => ⟨i.1, by
            have h1 := i.2
            have h2 := hg i.1
            simp only [List.length_append, List.length_singleton] at h2
            omega⟩
          left_inv := fun _ => rfl
          right_inv := fun _ => rfl }
      exact C.reindex f (μ := fun i : {i : ι // ¬ g i < ps.length + 1} => μ i.1)
        (ν := fun i : {i : ι // ¬ g i < ps.length + 1} => ν i.1) this

/-! ### Numbers with noise of a given standard deviation -/

/-- The numbers of all partitions, on two datasets, have noise with the standard deviation of the spec, relative to how much
they differ. -/
def Calibrated (sp : Engine.Mechanism.Spec) (val val' : K → Measure ℝ) : Prop :=
  ∃ (t x : ℝ) (A A' : K → ℝ), sp.std = some t ∧ 0 < t ∧ 0 < x ∧
    ((sp.type = .laplace ∧
      (∀ {ι : Type} [Fintype ι] (f : ι → K), Function.Injective f → ∑ i, |A (f i) - A' (f i)| ≤ x) ∧
      (val = fun k => noisy (.laplace (x * (t / Real.sqrt 2)) x) (A k)) ∧
      val' = fun k => noisy (.laplace (x * (t / Real.sqrt 2)) x) (A' k)) ∨
    (sp.type = .gaussian ∧
      (∀ {ι : Type} [Fintype ι] (f : ι → K), Function.Injective f → Real.sqrt (∑ i, (A (f i) - A' (f i)) ^ 2) ≤ x) ∧
      (val = fun k => noisy (.gaussian (t * x) x) (A k)) ∧
      val' = fun k => noisy (.gaussian (t * x) x) (A' k)))

theorem Calibrated.swap {sp : Engine.Mechanism.Spec} {val val' : K → Measure ℝ} (h : Calibrated sp val val') :
    Calibrated sp val' val := by
  obtain ⟨t, x, A, A', h1, h2, h3, h⟩ := h
  refine ⟨t, x, A', A, h1, h2, h3, ?_⟩
  rcases h with ⟨g1, g2, g3, g4⟩ | ⟨g1, g2, g3, g4⟩
  · refine .inl ⟨g1, ?_, g4, g3⟩
    intro ι _ f hf
    have := g2 f hf
    simpa only [abs_sub_comm] using this
  · refine .inr ⟨g1, ?_, g4, g3⟩
    intro ι _ f hf
    have := g2 f hf
    simp only [sub_sq_comm] at this ⊢
    exact this

theorem Calibrated.prob {sp : Engine.Mechanism.Spec} {val val' : K → Measure ℝ} (h : Calibrated sp val val') (k : K) :
    IsProbabilityMeasure (val k) := by
  obtain ⟨t, x, A, A', h1, h2, h3, h⟩ := h
  rcases h with ⟨g1, g2, rfl, g4⟩ | ⟨g1, g2, rfl, g4⟩
  · exact noisy_laplace_prob (by positivity) _ _
  · exact noisy_gaussian_prob (by positivity) _ _

/-- The privacy loss distribution of the noise of a spec. -/
noncomputable def specPld (pl : PldLib) (sp : Engine.Mechanism.Spec) : Option pl.PLD :=
  match sp.type with
  | .laplace => sp.std.map fun t => pl.laplace (t / Real.sqrt 2)
  | .gaussian => sp.std.map pl.gaussian
  | _ => none

theorem Calibrated.dominated {sp : Engine.Mechanism.Spec} {val val' : K → Measure ℝ} (h : Calibrated sp val val')
    {pl : PldLib} (C : PldContract pl) : ∃ q, specPld pl sp = some q ∧
      ∀ {ι : Type} [Fintype ι] (f : ι → K), Function.Injective f →
        C.Dominates q (Measure.pi fun i => val (f i)) (Measure.pi fun i => val' (f i)) := by
  obtain ⟨t, x, A, A', h1, h2, h3, h⟩ := h
  rcases h with ⟨g1, g2, rfl, rfl⟩ | ⟨g1, g2, rfl, rfl⟩
  · refine ⟨pl.laplace (t / Real.sqrt 2), by simp [specPld, g1, h1], ?_⟩
    intro ι _ f hf
    exact C.laplace _ _ (by positivity) h3 _ _ (g2 f hf)
  · refine ⟨pl.gaussian t, by simp [specPld, g1, h1], ?_⟩
    intro ι _ f hf
    exact C.gaussian _ _ h2 h3 _ _ (g2 f hf)

/-- Laplace noise needs no library. -/
theorem Calibrated.laplace {sp : Engine.Mechanism.Spec} {val val' : K → Measure ℝ} (h : Calibrated sp val val')
    (hl : sp.type = .laplace) {t : ℝ} (ht : sp.std = some t) {ι : Type} [Fintype ι] (f : ι → K) (hf : Function.Injective f) :
    Indist (Budget.Pld.laplaceEps 1 t) 0 (Measure.pi fun i => val (f i)) (Measure.pi fun i => val' (f i)) := by
  obtain ⟨t', x, A, A', h1, h2, h3, h⟩ := h
  rw [ht] at h1
  cases h1
  rcases h with ⟨g1, g2, rfl, rfl⟩ | ⟨g1, -⟩
  · have := laplace_group (e := Budget.Pld.laplaceEps 1 t) (by unfold Budget.Pld.laplaceEps; positivity) h3 _ _ (g2 f hf) x
    have e : x / Budget.Pld.laplaceEps 1 t = x * (t / Real.sqrt 2) := by
      unfold Budget.Pld.laplaceEps
      field_simp
    rw [e] at this
    exact this
  · rw [hl] at g1; cases g1

/-- A covered number gets calibrated noise. -/
theorem covered_calibrated {sigma : ℝ → ℝ → ℝ → ℝ} {kind : NoiseKind} {mech} {Δ : K → ℚ}
    (hc : NumberCovered sigma kind mech 1 Δ) (t : ℝ) (ht : 0 < t) :
    ∃ m, mech ⟨toMechType kind.mechanism, some t, none, none⟩ = .ok m ∧
      ∀ A B : K → ℚ, (∀ k, A k - B k = Δ k) →
        Calibrated ⟨toMechType kind.mechanism, some t, none, none⟩ (fun k => noisy m (A k)) (fun k => noisy m (B k)) := by
  obtain ⟨s, x, y, h1, h2, hx, hy, hcov, -, -, hstd⟩ := hc
  obtain ⟨hl, hg⟩ := hstd rfl t none none
  cases kind with
  | laplace =>
    refine ⟨_, hl, fun A B hAB => ⟨t, x, fun k => A k, fun k => B k, rfl, ht, hx, .inl ⟨rfl, ?_, ?_, ?_⟩⟩⟩
    · intro ι _ f hf
      obtain ⟨ks, hk, hsum⟩ := sum_injective f hf fun k => |((A k : ℚ) : ℝ) - (B k : ℚ)|
      rw [hsum]
      obtain ⟨x', hx', hle⟩ := hcov.l1
      rw [h1] at hx'; cases hx'
      refine le_trans (le_of_eq ?_) (hle ks hk)
      rw [cast_sum]
      congr 1
      apply List.map_congr_left
      intro k _
      rw [← hAB k]; push_cast; rfl
    · have : x / (1 / (t / Real.sqrt 2)) = x * (t / Real.sqrt 2) := by rw [div_div_eq_mul_div, div_one]
      rw [this]
    · have : x / (1 / (t / Real.sqrt 2)) = x * (t / Real.sqrt 2) := by rw [div_div_eq_mul_div, div_one]
      rw [this]
  | gaussian =>
    refine ⟨_, hg, fun A B hAB => ⟨t, y, fun k => A k, fun k => B k, rfl, ht, hy, .inr ⟨rfl, ?_, rfl, rfl⟩⟩⟩
    intro ι _ f hf
    obtain ⟨ks, hk, hsum⟩ := sum_injective f hf fun k => (((A k : ℚ) : ℝ) - (B k : ℚ)) ^ 2
    rw [hsum]
    obtain ⟨x', hx', hle⟩ := hcov.l2
    rw [h2] at hx'; cases hx'
    refine le_trans (le_of_eq ?_) (hle ks hk)
    rw [cast_sum]
    congr 2
    apply List.map_congr_left
    intro k _
    rw [← hAB k]; push_cast; rfl

end PDP.EndToEnd
