import Verif.EndToEnd.Releases
import Verif.EndToEnd.SparkGap

/-!
# The privacy loss of one call, from below (C80)

With Laplace noise the smallest epsilon with which two results are indistinguishable is known exactly: the sum of the distances of
the exact numbers, each divided by the scale of its noise.
-/

set_option linter.unusedSectionVars false

namespace PDP.EndToEnd

open PDP PDP.Engine PDP.Approx MeasureTheory
open PDP.Engine.Mechanism (Additive computed)
open PDP.Engine.AddNoise (specOf)

variable {R P K : Type} [DecidableEq P] [DecidableEq K]

/-! ### Independent Laplace noise -/

/-- The results at least as far from `y` as `x` is. -/
def beyond (x y : ℝ) : Set ℝ := if y ≤ x then Set.Ici x else Set.Iic x

theorem measurable_beyond (x y : ℝ) : MeasurableSet (beyond x y) := by
  unfold beyond
  split
  · exact measurableSet_Ici
  · exact measurableSet_Iic

theorem noisy_beyond {b : ℝ} (hb : 0 < b) (z x y : ℝ) :
    noisy (.laplace b z) y (beyond x y) = ENNReal.ofReal (Real.exp (-(|x - y| / b)) / 2) ∧
      noisy (.laplace b z) x (beyond x y) = ENNReal.ofReal (1 / 2) := by
  unfold beyond
  by_cases h : y ≤ x
  · rw [if_pos h, abs_of_nonneg (sub_nonneg.mpr h)]
    have h1 := laplace_tail hb (t := x - y) (sub_nonneg.mpr h) y z
    have h2 := laplace_tail hb (t := 0) le_rfl x z
    rw [add_sub_cancel] at h1
    rw [add_zero, neg_zero, zero_div, Real.exp_zero] at h2
    rw [← neg_div]
    exact ⟨h1, h2⟩
  · rw [if_neg h, abs_of_neg (sub_neg.mpr (not_le.mp h))]
    have h1 := laplace_lower_tail hb (t := y - x) (sub_nonneg.mpr (not_le.mp h).le) y z
    have h2 := laplace_lower_tail hb (t := 0) le_rfl x z
    rw [sub_sub_cancel] at h1
    rw [sub_zero, neg_zero, zero_div, Real.exp_zero] at h2
    rw [neg_sub, ← neg_div]
    exact ⟨h1, h2⟩

theorem laplace_corner {ι : Type} [Fintype ι] {b : ι → ℝ} (hb : ∀ i, 0 < b i) (z x y : ι → ℝ) :
    (Measure.pi fun i => noisy (.laplace (b i) (z i)) (y i)) (Set.univ.pi fun i => beyond (x i) (y i))
        = ENNReal.ofReal (Real.exp (-∑ i, |x i - y i| / b i) * (1 / 2) ^ Fintype.card ι) ∧
      (Measure.pi fun i => noisy (.laplace (b i) (z i)) (x i)) (Set.univ.pi fun i => beyond (x i) (y i))
        = ENNReal.ofReal ((1 / 2) ^ Fintype.card ι) := by
  have hp : ∀ i c, IsProbabilityMeasure (noisy (.laplace (b i) (z i)) c) := fun i c => noisy_laplace_prob (hb i) _ _
  rw [Measure.pi_pi, Measure.pi_pi]
  constructor
  · rw [Finset.prod_congr rfl fun i _ => (noisy_beyond (hb i) (z i) (x i) (y i)).1,
      ← ENNReal.ofReal_prod_of_nonneg fun i _ => by positivity]
    congr 1
    simp only [div_eq_mul_inv (Real.exp _), Finset.prod_mul_distrib, ← Real.exp_sum, Finset.prod_const, Finset.card_univ,
      Finset.sum_neg_distrib]
    norm_num
  · rw [Finset.prod_congr rfl fun i _ => (noisy_beyond (hb i) (z i) (x i) (y i)).2, Finset.prod_const, Finset.card_univ,
      ENNReal.ofReal_pow (by norm_num)]

/-- Two vectors of numbers with independent Laplace noise can be told apart: the loss is at least the sum of the distances, each
divided by the scale of the noise. -/
theorem laplace_loss {ι : Type} [Fintype ι] {b : ι → ℝ} (hb : ∀ i, 0 < b i) (z x y : ι → ℝ) {e' d' : ℝ} (hd : 0 ≤ d')
    (h : Indist e' d' (Measure.pi fun i => noisy (.laplace (b i) (z i)) (x i))
      (Measure.pi fun i => noisy (.laplace (b i) (z i)) (y i))) :
    (1 / 2) ^ Fintype.card ι * (1 - Real.exp (e' - ∑ i, |x i - y i| / b i)) ≤ d' := by
  have h1 := h (Set.univ.pi fun i => beyond (x i) (y i)) (MeasurableSet.univ_pi fun i => measurable_beyond _ _)
  obtain ⟨c1, c2⟩ := laplace_corner hb z x y
  rw [c1, c2, ← ENNReal.ofReal_mul (Real.exp_nonneg _), ← ENNReal.ofReal_add (by positivity) hd,
    ENNReal.ofReal_le_ofReal_iff (by positivity)] at h1
  rw [sub_eq_add_neg e', Real.exp_add]
  linarith

/-! ### What is observed if all partitions are released -/

/-- A product of equal point masses. -/
theorem pi_dirac {ι α : Type} [Fintype ι] [MeasurableSpace α] (x : α) :
    (Measure.pi fun _ : ι => Measure.dirac x) = Measure.dirac fun _ => x := by
  classical
  refine Measure.pi_eq fun s hs => ?_
  rw [Measure.dirac_apply' _ (MeasurableSet.univ_pi hs)]
  simp only [Measure.dirac_apply' _ (hs _), Set.indicator_apply, Set.mem_univ_pi, Pi.one_apply, Finset.prod_ite_zero,
    Finset.mem_univ, true_implies, Finset.prod_const_one]

theorem observedLaw_always (lib : Library) (U : Finset (ℕ × K)) (S : Finset (ℕ × ℕ)) (L : List (List (Candidate K)))
    (h : ∀ u : U, decisionLaw lib (L.getD u.1.1 []) u.1.2 = Measure.dirac (true, 0))
    (hn : ∀ i : U × S, IsProbabilityMeasure (numberLaw (L.getD i.1.1.1 []) i.1.1.2 i.2.1)) :
    observedLaw lib U S L
      = (Measure.pi fun i : U × S => numberLaw (L.getD i.1.1.1 []) i.1.1.2 i.2.1).map fun f => ((fun _ => (true, 0)), f) := by
  unfold observedLaw
  have h1 : (Measure.pi fun u : U => decisionLaw lib (L.getD u.1.1 []) u.1.2)
      = Measure.dirac (fun _ : U => ((true, 0) : Bool × ℝ)) := by
    rw [show (fun u : U => decisionLaw lib (L.getD u.1.1 []) u.1.2) = fun _ => Measure.dirac (true, 0) from funext h]
    exact pi_dirac _
  rw [h1, Measure.dirac_prod, Measure.map_map measurable_hide measurable_prodMk_left]
  rfl

end PDP.EndToEnd
