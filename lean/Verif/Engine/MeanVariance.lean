import Verif.Engine.Release
import Verif.Engine.CombinersProps
import Mathlib.Tactic.Ring
import Mathlib.Tactic.FieldSimp
import Mathlib.Tactic.Linarith
import Mathlib.Algebra.BigOperators.Ring.List

/-! # Property C22: MEAN and VARIANCE without noise -/

set_option linter.unusedVariables false

namespace PDP.Engine

/-! ### Specification -/

/-- Arithmetic mean. -/
def average (xs : List ℚ) : ℚ := xs.sum / xs.length

/-- Population variance: mean squared distance from the mean. -/
def populationVariance (xs : List ℚ) : ℚ := average (xs.map fun x => (x - average xs) ^ 2)

/-- All values of a partition: those of all users, in the order of the merge tree. -/
def allValues (t : MergeTree (List ℚ)) : List ℚ := t.leaves.flatten

/-! ### Lemmas -/

theorem eval_mean (lo hi : ℚ) (t : MergeTree (List ℚ)) :
    ((t.map (Combiner.mean lo hi).create).eval (Combiner.mean lo hi).merge : ℕ × ℚ)
      = (Combiner.mean lo hi).create (allValues t) := by
  induction t with
  | leaf a => simp [allValues, MergeTree.map, MergeTree.eval, MergeTree.leaves]; rfl
  | node l r ihl ihr =>
    simp only [MergeTree.map, MergeTree.eval, ihl, ihr]
    simp [Combiner.mean, allValues, MergeTree.leaves]

theorem eval_variance (lo hi : ℚ) (t : MergeTree (List ℚ)) :
    ((t.map (Combiner.variance lo hi).create).eval (Combiner.variance lo hi).merge : ℕ × ℚ × ℚ)
      = (Combiner.variance lo hi).create (allValues t) := by
  induction t with
  | leaf a => simp [allValues, MergeTree.map, MergeTree.eval, MergeTree.leaves]; rfl
  | node l r ihl ihr =>
    simp only [MergeTree.map, MergeTree.eval, ihl, ihr]
    simp [Combiner.variance, allValues, MergeTree.leaves]

theorem sum_shift (xs : List ℚ) (f : ℚ → ℚ) (m : ℚ) :
    (xs.map fun v => f v - m).sum = (xs.map f).sum - xs.length * m := by
  induction xs with
  | nil => simp
  | cons x xs ih => simp only [List.map_cons, List.sum_cons, ih, List.length_cons, Nat.cast_succ]; ring

theorem sum_sq_shift (xs : List ℚ) (m : ℚ) :
    (xs.map fun v => (v - m) ^ 2).sum = (xs.map fun v => v ^ 2).sum - 2 * m * xs.sum + xs.length * m ^ 2 := by
  induction xs with
  | nil => simp
  | cons x xs ih => simp only [List.map_cons, List.sum_cons, ih, List.length_cons, Nat.cast_succ]; ring

theorem populationVariance_eq (xs : List ℚ) (h : xs ≠ []) :
    populationVariance xs = (xs.map fun v => v ^ 2).sum / xs.length - average xs ^ 2 := by
  have hn : (xs.length : ℚ) ≠ 0 := by
    have := List.length_pos_iff.mpr h
    exact_mod_cast this.ne'
  have hs : xs.sum = average xs * xs.length := by unfold average; field_simp
  unfold populationVariance
  rw [average, List.length_map, sum_sq_shift, hs]
  field_simp
  ring

theorem squaresInterval_ne {lo hi : ℚ} (h : lo < hi) : (squaresInterval lo hi).1 ≠ (squaresInterval lo hi).2 := by
  unfold squaresInterval
  split
  · rename_i h2
    intro h3
    simp only at h3
    have : 0 < max (lo ^ 2) (hi ^ 2) := by
      rcases h2 with ⟨h4, h5⟩
      exact lt_of_lt_of_le (by positivity) (le_max_right (lo ^ 2) (hi ^ 2))
    linarith
  · rename_i h2
    intro h3
    simp only at h3
    have h4 : (hi - lo) * (hi + lo) = 0 := by linarith
    rcases mul_eq_zero.mp h4 with h5 | h5
    · linarith
    · exact h2 ⟨by linarith, by linarith⟩

/-! ### Theorems -/

/-- **C22.** Zero noise, at least one value: MEAN releases number, sum and mean of the clipped values,
in whatever way the backend merged the users. -/
theorem C22_mean_without_noise (lo hi : ℚ) (t : MergeTree (List ℚ)) (hne : allValues t ≠ []) :
    let clipped := (allValues t).map (clip lo hi)
    releaseMean id id lo hi ((t.map (Combiner.mean lo hi).create).eval (Combiner.mean lo hi).merge)
      = ⟨clipped.length, clipped.sum, average clipped⟩ := by
  intro clipped
  have hn : (1 : ℚ) ≤ (allValues t).length := by exact_mod_cast List.length_pos_iff.mpr hne
  have hn0 : ((allValues t).length : ℚ) ≠ 0 := by linarith
  rw [eval_mean]
  simp only [releaseMean, computeMean, Combiner.mean, id_eq, sum_shift, max_eq_right hn, clipped, average,
    List.length_map, MeanOut.mk.injEq, true_and]
  constructor <;> field_simp <;> ring

/-- **C22.** Zero noise, no values (an empty public partition): count and sum are 0 and the mean is the
middle of the range. -/
theorem C22_mean_of_empty_partition (lo hi : ℚ) (t : MergeTree (List ℚ)) (he : allValues t = []) :
    releaseMean id id lo hi ((t.map (Combiner.mean lo hi).create).eval (Combiner.mean lo hi).merge)
      = ⟨0, 0, (lo + hi) / 2⟩ := by
  rw [eval_mean, he]
  simp [releaseMean, computeMean, Combiner.mean, middle]
  ring

/-- **C22.** Zero noise, at least one value: VARIANCE releases number, sum, mean and population variance
of the clipped values. -/
theorem C22_variance_without_noise (lo hi : ℚ) (hlt : lo < hi) (t : MergeTree (List ℚ))
    (hne : allValues t ≠ []) :
    let clipped := (allValues t).map (clip lo hi)
    releaseVariance id id id lo hi
        ((t.map (Combiner.variance lo hi).create).eval (Combiner.variance lo hi).merge)
      = ⟨clipped.length, clipped.sum, average clipped, populationVariance clipped⟩ := by
  intro clipped
  have hn : (1 : ℚ) ≤ (allValues t).length := by exact_mod_cast List.length_pos_iff.mpr hne
  have hn0 : ((allValues t).length : ℚ) ≠ 0 := by linarith
  have hcl : clipped ≠ [] := by simpa [clipped] using hne
  have h2 := sum_sq_shift clipped (middle lo hi)
  rw [populationVariance_eq _ hcl, eval_variance]
  simp only [releaseVariance, meanForNormalizedSum, Combiner.variance, if_neg hlt.ne,
    if_neg (squaresInterval_ne hlt), id_eq, max_eq_right hn]
  rw [show ((allValues t).map fun v => (clip lo hi v - middle lo hi) ^ 2)
    = clipped.map (fun v => (v - middle lo hi) ^ 2) by simp [clipped, Function.comp_def], h2, sum_shift]
  have hlen : (clipped.length : ℚ) = (allValues t).length := by simp [clipped]
  have hsum : ((allValues t).map (clip lo hi)).sum = clipped.sum := rfl
  simp only [average, hlen, hsum, ne_eq, hlt.ne, not_false_eq_true, if_true, VarOut.mk.injEq, true_and]
  refine ⟨?_, ?_, ?_⟩ <;> field_simp <;> ring

/-- **C22.** Zero noise, no values: VARIANCE releases count 0, sum 0, the middle of the range and
variance 0. -/
theorem C22_variance_of_empty_partition (lo hi : ℚ) (hlt : lo < hi) (t : MergeTree (List ℚ))
    (he : allValues t = []) :
    releaseVariance id id id lo hi
        ((t.map (Combiner.variance lo hi).create).eval (Combiner.variance lo hi).merge)
      = ⟨0, 0, (lo + hi) / 2, 0⟩ := by
  rw [eval_variance, he]
  simp only [releaseVariance, meanForNormalizedSum, Combiner.variance, if_neg hlt.ne,
    if_neg (squaresInterval_ne hlt), id_eq]
  simp [middle, hlt.ne]
  ring

/-! ### Only noisy values are released -/

/-- **C22.** Whatever the noise, MEAN is computed from the noisy count and the noisy normalised sum only: the exact
values of the accumulator have no other influence.  The released count is the noisy count, the distance of the
released mean to the middle is the noisy normalised sum divided by the noisy count (by 1 if that is less than 1), and
the released sum is mean times count. -/
theorem C22_mean_from_noisy_values (noiseCount noiseSum : ℚ → ℚ) (lo hi : ℚ) (acc : ℕ × ℚ) :
    let out := releaseMean noiseCount noiseSum lo hi acc
    out.count = noiseCount acc.1 ∧
    (out.mean - (lo + hi) / 2) * max 1 (noiseCount acc.1) = noiseSum acc.2 ∧
    out.sum = out.mean * out.count ∧
    ∀ (noiseCount' noiseSum' : ℚ → ℚ) (acc' : ℕ × ℚ), noiseCount' acc'.1 = noiseCount acc.1 →
      noiseSum' acc'.2 = noiseSum acc.2 → releaseMean noiseCount' noiseSum' lo hi acc' = out := by
  have hpos : (0 : ℚ) < max 1 (noiseCount acc.1) := lt_of_lt_of_le zero_lt_one (le_max_left _ _)
  refine ⟨rfl, ?_, rfl, fun nc ns acc' h1 h2 => ?_⟩
  · simp only [releaseMean, computeMean, middle]
    field_simp
    ring
  · simp only [releaseMean, computeMean, h1, h2]

/-- **C22.** Whatever the noise, VARIANCE for a proper range is computed from the noisy count, normalised sum and
normalised sum of squares only. -/
theorem C22_variance_from_noisy_values (noiseCount noiseSum noiseSquares : ℚ → ℚ) (lo hi : ℚ) (hlt : lo < hi)
    (acc : ℕ × ℚ × ℚ) :
    let out := releaseVariance noiseCount noiseSum noiseSquares lo hi acc
    out.count = noiseCount acc.1 ∧
    (out.mean - (lo + hi) / 2) * max 1 (noiseCount acc.1) = noiseSum acc.2.1 ∧
    (out.variance + (out.mean - (lo + hi) / 2) ^ 2) * max 1 (noiseCount acc.1) = noiseSquares acc.2.2 ∧
    out.sum = out.mean * out.count ∧
    ∀ (noiseCount' noiseSum' noiseSquares' : ℚ → ℚ) (acc' : ℕ × ℚ × ℚ), noiseCount' acc'.1 = noiseCount acc.1 →
      noiseSum' acc'.2.1 = noiseSum acc.2.1 → noiseSquares' acc'.2.2 = noiseSquares acc.2.2 →
      releaseVariance noiseCount' noiseSum' noiseSquares' lo hi acc' = out := by
  have hpos : (0 : ℚ) < max 1 (noiseCount acc.1) := lt_of_lt_of_le zero_lt_one (le_max_left _ _)
  refine ⟨rfl, ?_, ?_, rfl, fun nc ns nq acc' h1 h2 h3 => ?_⟩
  · simp only [releaseVariance, meanForNormalizedSum, if_neg hlt.ne, if_neg (squaresInterval_ne hlt), middle,
      if_pos hlt.ne]
    field_simp
    ring
  · simp only [releaseVariance, meanForNormalizedSum, if_neg hlt.ne, if_neg (squaresInterval_ne hlt), middle,
      if_pos hlt.ne]
    field_simp
    ring
  · simp only [releaseVariance, meanForNormalizedSum, h1, h2, h3]

/-- **C22.** If the range of values is a single point, VARIANCE releases this point as the mean, and variance 0,
whatever the noise and the data. -/
theorem C22_variance_of_a_point (noiseCount noiseSum noiseSquares : ℚ → ℚ) (x : ℚ) (acc : ℕ × ℚ × ℚ) :
    releaseVariance noiseCount noiseSum noiseSquares x x acc
      = ⟨noiseCount acc.1, x * noiseCount acc.1, x, 0⟩ := by
  have hsq : squaresInterval x x = (x ^ 2, x ^ 2) := by
    unfold squaresInterval
    rw [if_neg]
    rintro ⟨h1, h2⟩
    linarith
  simp [releaseVariance, meanForNormalizedSum, hsq]

/-- Noisy count 1/2 and noisy normalised sum -3 for values in [0, 10]: mean 5 - 3, sum 2 · 1/2. -/
example : releaseMean (fun _ => 1 / 2) (fun _ => -3) 0 10 (7, 20) = ⟨1 / 2, 1, 2⟩ := by decide +kernel

/-- Two users, values 1, 5 and 20 clipped to [0, 10]: mean 16/3 and variance 122/9. -/
example :
    let t := MergeTree.node (.leaf [1, 5]) (.leaf [20])
    allValues t ≠ [] ∧ (allValues t).map (clip 0 10) = [1, 5, 10] ∧
    releaseVariance id id id 0 10
      ((t.map (Combiner.variance 0 10).create).eval (Combiner.variance 0 10).merge)
      = ⟨3, 16, 16 / 3, 122 / 9⟩ := by
  refine ⟨by decide +kernel, by decide +kernel, by decide +kernel⟩

/-- A user and an empty public partition. -/
example : releaseMean id id 0 10
    (((MergeTree.node (.leaf [4]) (.leaf [])).map (Combiner.mean 0 10).create).eval (Combiner.mean 0 10).merge)
      = ⟨1, 4, 4⟩ := by decide +kernel

end PDP.Engine
