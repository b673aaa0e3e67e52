import Verif.Engine.Release
import Verif.Engine.Partitions
import Mathlib.Tactic.Linarith
import Mathlib.Tactic.FieldSimp
import Mathlib.Tactic.Positivity
import Mathlib.Algebra.BigOperators.Ring.List
import Mathlib.Algebra.Order.BigOperators.Group.List

/-! # Property C18: VECTOR_SUM -/

set_option linter.unusedSectionVars false
set_option linter.unusedVariables false

namespace PDP.Engine

open PDP

variable {P K : Type} [DecidableEq P] [DecidableEq K]

/-! ### Specification -/

/-- The vector is within the ball of radius `M` of the norm. -/
def InBall (M : ℝ) (v : List ℝ) : NormKind → Prop
  | .linf => ∀ x ∈ v, |x| ≤ M
  | .l1 => (v.map abs).sum ≤ M
  | .l2 => Real.sqrt (v.map fun x => x ^ 2).sum ≤ M
  | .l0 => False

/-! ### Clipping -/

theorem sum_sq_nonneg (v : List ℝ) : 0 ≤ (v.map fun x => x ^ 2).sum := by
  apply List.sum_nonneg
  intro x hx
  obtain ⟨y, -, rfl⟩ := List.mem_map.mp hx
  exact sq_nonneg y

theorem scale_coef {M N : ℝ} (hM : 0 ≤ M) (hN : 0 ≤ N) :
    0 ≤ (if N = 0 then (1 : ℝ) else min 1 (M / N)) ∧ N * (if N = 0 then (1 : ℝ) else min 1 (M / N)) ≤ M ∧
    (N ≤ M → (if N = 0 then (1 : ℝ) else min 1 (M / N)) = 1) := by
  split
  · rename_i h
    subst h
    exact ⟨zero_le_one, by simpa using hM, fun _ => rfl⟩
  · rename_i h
    have hpos : 0 < N := lt_of_le_of_ne hN (Ne.symm h)
    refine ⟨le_min zero_le_one (div_nonneg hM hN), ?_, fun h1 => ?_⟩
    · calc N * min 1 (M / N) ≤ N * (M / N) := mul_le_mul_of_nonneg_left (min_le_right _ _) hN
        _ = M := by field_simp
    · exact min_eq_left ((one_le_div hpos).mpr h1)

/-- **C18.** Clipping of the released vector: for the norms Linf, L1 and L2 the result is within the ball
of radius `max_norm`, and vectors that are already inside are not changed. -/
theorem C18_clipped_vector_is_in_ball (v : List ℝ) (M : ℝ) (hM : 0 ≤ M) (kind : NormKind) (hk : kind ≠ .l0) :
    ∃ w, clipVector v M kind = .ok w ∧ w.length = v.length ∧ InBall M w kind ∧ (InBall M v kind → w = v) := by
  cases kind with
  | l0 => exact absurd rfl hk
  | linf =>
    refine ⟨_, rfl, by simp, ?_, ?_⟩
    · intro x hx
      obtain ⟨y, -, rfl⟩ := List.mem_map.mp hx
      rw [abs_le]
      exact ⟨le_min (le_max_right _ _) (by linarith), min_le_right _ _⟩
    · intro h
      conv_rhs => rw [← List.map_id v]
      apply List.map_congr_left
      intro x hx
      have := abs_le.mp (h x hx)
      rw [max_eq_left this.1, min_eq_left this.2, id]
  | l1 =>
    have hN : 0 ≤ (v.map abs).sum := by
      apply List.sum_nonneg
      intro x hx
      obtain ⟨y, -, rfl⟩ := List.mem_map.mp hx
      exact abs_nonneg y
    obtain ⟨h1, h2, h3⟩ := scale_coef hM hN
    refine ⟨_, rfl, by simp [scaleTo], ?_, ?_⟩
    · unfold InBall scaleTo
      rw [List.map_map]
      refine le_trans (le_of_eq ?_) h2
      rw [← List.sum_map_mul_right]
      congr 1
      apply List.map_congr_left
      intro x _
      show |_ * _| = |x| * _
      rw [abs_mul, abs_of_nonneg h1]
    · intro h
      unfold scaleTo
      rw [h3 h]; simp
  | l2 =>
    have hS := sum_sq_nonneg v
    obtain ⟨h1, h2, h3⟩ := scale_coef hM (Real.sqrt_nonneg (v.map fun x => x ^ 2).sum)
    refine ⟨_, rfl, by simp [scaleTo], ?_, ?_⟩
    · unfold InBall scaleTo
      refine le_trans (le_of_eq ?_) h2
      generalize (if √(List.map (fun x => x ^ 2) v).sum = 0 then (1 : ℝ)
        else min 1 (M / √(List.map (fun x => x ^ 2) v).sum)) = c at h1
      have : ((v.map fun x => x * c).map fun x => x ^ 2).sum = (v.map fun x => x ^ 2).sum * c ^ 2 := by
        rw [List.map_map, ← List.sum_map_mul_right]
        congr 1
        apply List.map_congr_left
        intro x _
        show (x * c) ^ 2 = x ^ 2 * c ^ 2
        ring
      rw [this, Real.sqrt_mul hS, Real.sqrt_sq h1]
    · intro h
      unfold scaleTo
      rw [h3 h]; simp

/-- The L0 norm can not be used for clipping. -/
theorem C18_l0_norm_rejected (v : List ℝ) (M : ℝ) : clipVector v M .l0 = .error .notImplemented := rfl

/-! ### The noise does not depend on the norm -/

/-- **C18, defect.** The noise is calibrated to `max_partitions_contributed` and
`max_contributions_per_partition` only.  One user with the single vector `(M)`, where `M` is `max_norm` and
exceeds `max_contributions_per_partition`, changes the clipped released coordinate by `M`, which the
declared sensitivities do not cover: adding one id changes more than the noise accounts for, for each
supported norm. -/
theorem C18_one_user_exceeds_declared_sensitivity (l0 linf : ℕ) (M : ℚ) (hM : (linf : ℚ) < M)
    (kind : NormKind) (hk : kind ≠ .l0) :
    let other := (Combiner.vectorSum 1).create [[0]]
    let user := (Combiner.vectorSum 1).create [[M]]
    releaseVector (fun _ x => x) M kind other = .ok [0] ∧
    releaseVector (fun _ x => x) M kind ((Combiner.vectorSum 1).merge other user) = .ok [(M : ℝ)] ∧
    ¬ (vectorCoordinateSens l0 linf).Covers (fun _ : Unit => M - 0) := by
  have hM0 : (0 : ℝ) ≤ (M : ℝ) := by
    have : (0 : ℚ) ≤ M := (Nat.cast_nonneg linf).trans hM.le
    exact_mod_cast this
  have h1 : ∀ x : ℚ, (0 ≤ x ∧ x ≤ M) → releaseVector (fun _ x => x) M kind (.vec [x]) = .ok [(x : ℝ)] := by
    intro x hx
    have hx1 : (0 : ℝ) ≤ (x : ℝ) := by exact_mod_cast hx.1
    have hx2 : (x : ℝ) ≤ (M : ℝ) := by exact_mod_cast hx.2
    obtain ⟨w, hw, -, -, hw2⟩ := C18_clipped_vector_is_in_ball [(x : ℝ)] (M : ℝ) hM0 kind hk
    have hin : InBall (M : ℝ) [(x : ℝ)] kind := by
      cases kind with
      | l0 => exact absurd rfl hk
      | linf => intro y hy; rw [List.mem_singleton.mp hy, abs_of_nonneg hx1]; exact hx2
      | l1 => simpa [InBall, abs_of_nonneg hx1] using hx2
      | l2 => simpa [InBall, Real.sqrt_sq hx1] using hx2
    have hw3 := hw2 hin
    subst hw3
    simp only [releaseVector, List.map_cons, List.map_nil, hw, bind, Except.bind, pure, Except.pure]
    rfl
  have hMq : (0 : ℚ) ≤ M := (Nat.cast_nonneg linf).trans hM.le
  refine ⟨?_, ?_, ?_⟩
  · have := h1 0 ⟨le_refl _, hMq⟩
    simpa [Combiner.vectorSum, Combiner.vecStep] using this
  · have := h1 M ⟨hMq, le_refl _⟩
    simpa [Combiner.vectorSum, Combiner.vecStep, Combiner.vecMerge] using this
  · intro h
    have h2 := h.linf (linf : ℝ) rfl ()
    rw [sub_zero, abs_of_nonneg hM0] at h2
    have : M ≤ (linf : ℚ) := by exact_mod_cast h2
    exact absurd hM (not_lt.mpr this)

/-- The same through the engine: users 1 and 2, `max_norm` 10, at most one partition and one contribution per
partition; the accumulator of partition 7 with and without user 2. -/
def vectorDemoParams : Params := { metrics := [.vectorSum], maxPartitions := some 1, maxPerPartition := some 1 }

example :
    accumulators (localBackend firstRng) vectorDemoParams true (Combiner.vectorSum 1).create none
      [(1, 7, [0]), (2, 7, [10])] = .ok [(7, Combiner.VecAcc.vec [0]), (7, Combiner.VecAcc.vec [10])] ∧
    accumulators (localBackend firstRng) vectorDemoParams true (Combiner.vectorSum 1).create none
      (without 2 [(1, 7, [0]), (2, 7, [10])]) = .ok [(7, Combiner.VecAcc.vec [0])] := by
  constructor <;> rfl

/-! ### Public partitions -/

theorem vecMerge_of_empty (t : MergeTree Combiner.VecAcc) (h : Combiner.VecAcc.empty ∈ t.leaves) :
    t.eval Combiner.vecMerge = .empty ∨ t.eval Combiner.vecMerge = .error := by
  cases t with
  | leaf a =>
    left
    simp only [MergeTree.leaves, List.mem_singleton] at h
    exact h.symm
  | node l r =>
    right
    have key : ∀ t : MergeTree Combiner.VecAcc, Combiner.VecAcc.empty ∈ t.leaves →
        ∀ v, t.eval Combiner.vecMerge ≠ .vec v := by
      intro t
      induction t with
      | leaf a =>
        intro h v
        simp only [MergeTree.leaves, List.mem_singleton] at h
        subst h; simp [MergeTree.eval]
      | node l r ihl ihr =>
        intro h v
        simp only [MergeTree.leaves, List.mem_append] at h
        rw [MergeTree.eval]
        rcases h with h | h
        · have := ihl h
          cases hl : l.eval Combiner.vecMerge with
          | vec v => exact absurd hl (this v)
          | error => simp [Combiner.vecMerge]
          | empty => simp [Combiner.vecMerge]
        · have := ihr h
          cases hr : r.eval Combiner.vecMerge with
          | vec v => exact absurd hr (this v)
          | error => cases l.eval Combiner.vecMerge <;> simp [Combiner.vecMerge]
          | empty => cases l.eval Combiner.vecMerge <;> simp [Combiner.vecMerge]
    have h2 := key _ h
    rw [MergeTree.eval] at h2 ⊢
    cases hl : l.eval Combiner.vecMerge <;> cases hr : r.eval Combiner.vecMerge <;>
      simp [hl, hr, Combiner.vecMerge] at h2 ⊢

/-- **C18, defect.** VECTOR_SUM with public partitions can not be released: for every dataset, backend,
parameters and every public partition, merging the accumulator of the empty partition (`None`) or
releasing it raises `TypeError`. -/
theorem C18_public_partitions_always_fail (B : Backend) (hB : B.Lawful) (p : Params) (hp : p.BoundsValid)
    (n : ℕ) (comb : List (K × (Combiner.compound [Combiner.vectorSum n]).Acc) →
      List (K × (Combiner.compound [Combiner.vectorSum n]).Acc))
    (hcomb : LawfulCombine (Combiner.compound [Combiner.vectorSum n]).merge comb)
    (keep : K → ℕ → Bool) (ps : List K) (col : List (P × K × List ℚ))
    (hf : p.publicFiltered = true → ∀ r ∈ col, r.2.1 ∈ ps) (noise : ℕ → ℝ → ℝ) (M : ℝ) (kind : NormKind) :
    ∃ out, partitionAccumulators B [Combiner.vectorSum n] comb keep p (some ps) col = .ok out ∧
      (∀ k ∈ ps, k ∈ out.map Prod.fst) ∧
      ∀ e ∈ out, releaseVector noise M kind
        (Combiner.readAs (cs := [Combiner.vectorSum n]) (Combiner.vectorSum n) 0 rfl e.2) = .error .typeError := by
  obtain ⟨entries, h1, h2⟩ := accumulators_entries B hB p hp (Combiner.compound [Combiner.vectorSum n]).sampling
    (Combiner.compound [Combiner.vectorSum n]).create (some ps) col
  have hC := hcomb (addEmptyPublic (Combiner.compound [Combiner.vectorSum n]).create (some ps)
    (entries.map fun e => (e.1.2, (Combiner.compound [Combiner.vectorSum n]).create e.2)))
  obtain ⟨out, -, h3, -, h4, -⟩ := C23_public_partitions_are_the_output B hB p hp [Combiner.vectorSum n] comb
    hcomb keep ps col hf
  have hout : partitionAccumulators B [Combiner.vectorSum n] comb keep p (some ps) col = .ok
      (comb (addEmptyPublic (Combiner.compound [Combiner.vectorSum n]).create (some ps)
    (entries.map fun e => (e.1.2, (Combiner.compound [Combiner.vectorSum n]).create e.2)))) := by
    simp only [partitionAccumulators, h2, bind, Except.bind, selectsPrivately, Option.isNone_some,
      Bool.false_and, pure, Except.pure]
    rfl
  rw [hout, Except.ok.injEq] at h3
  subst h3
  refine ⟨_, hout, fun k hk => (h4 k).mpr hk, ?_⟩
  intro e he
  have hk : e.1 ∈ ps := (h4 e.1).mp (List.mem_map_of_mem he)
  obtain ⟨t, ht1, ht2⟩ := hC.values e he
  have hempty : (Combiner.compound [Combiner.vectorSum n]).create [] ∈ t.leaves := by
    rw [ht1.mem_iff, mem_valuesOf]
    simp only [addEmptyPublic, List.mem_append]
    right
    exact List.mem_map.mpr ⟨e.1, hk, rfl⟩
  have hinner := (C20_compound_merges_componentwise [Combiner.vectorSum n] t 0).2
  rw [← ht2] at hinner
  let t' : MergeTree Combiner.VecAcc := t.map (Combiner.inner (cs := [Combiner.vectorSum n]) 0)
  have hl : ∀ {A B : Type} (f : A → B) (t : MergeTree A), (t.map f).leaves = t.leaves.map f := by
    intro A B f t
    induction t with
    | leaf a => rfl
    | node l r ihl ihr => simp [MergeTree.leaves, MergeTree.map, ihl, ihr]
  have hm : Combiner.VecAcc.empty ∈ t'.leaves := by
    show Combiner.VecAcc.empty ∈ (t.map (Combiner.inner (cs := [Combiner.vectorSum n]) 0)).leaves
    rw [hl]
    exact List.mem_map.mpr ⟨_, hempty, rfl⟩
  have hread : Combiner.readAs (cs := [Combiner.vectorSum n]) (Combiner.vectorSum n) 0 rfl e.2
      = t'.eval Combiner.vecMerge := hinner
  rw [hread]
  rcases vecMerge_of_empty t' hm with h | h <;> rw [h] <;> rfl

/-- Two users in the public partition 7, and the empty public partition 8. -/
example := C18_public_partitions_always_fail (P := ℕ) (K := ℕ) (localBackend firstRng)
  (C39_local_backend_lawful _) vectorDemoParams (Or.inr ⟨1, 1, le_refl _, le_refl _, rfl, rfl, rfl⟩) 1
  (localCombine _) (localCombine_lawful _) (fun _ _ => false) [7, 8] [(1, 7, [0]), (2, 7, [10])]
  (fun h => absurd h (by decide)) (fun _ x => x) 10 .linf

end PDP.Engine
