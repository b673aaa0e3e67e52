import Mathlib.Algebra.Order.Ring.Rat
import Mathlib.Algebra.Order.Field.Basic
import Mathlib.Algebra.BigOperators.Ring.Finset
import Mathlib.Algebra.Order.BigOperators.Group.List
import Mathlib.Data.Finset.Powerset
import Mathlib.Data.Nat.Choose.Basic
import Mathlib.Analysis.Real.Sqrt
import Mathlib.Tactic.Ring
import Mathlib.Tactic.FieldSimp
import Mathlib.Tactic.Linarith
import Mathlib.Tactic.Positivity

/-!
# Per-partition error analysis (`analysis/per_partition_combiners.py`)

Floats are rationals; the square root of `compute_metrics` is taken in the reals.
-/

set_option linter.unusedVariables false

namespace PDP.Analysis

/-! ### Model -/

/-- What the analysis knows of one user of a partition: number of rows, sum of the values, number of partitions the user
contributes to (`PreaggregatedData`, `per_partition_combiners.py:33-34`). -/
structure UserRow where
  count : ℕ
  sum : ℚ
  nPartitions : ℕ
deriving DecidableEq

/-- `np.where(n_partitions > 0, np.minimum(1, max_partitions / n_partitions), 0)`
(`per_partition_combiners.py:205-206`, `:260-261`). -/
def probKeep (l0 n : ℕ) : ℚ := if n > 0 then min 1 ((l0 : ℚ) / n) else 0

/-- `np.clip`. -/
def npClip (x lo hi : ℚ) : ℚ := min (max x lo) hi

/-- Accumulator of `SumCombiner`. -/
structure SumAcc where
  sum : ℚ
  clipMin : ℚ
  clipMax : ℚ
  expL0 : ℚ
  varL0 : ℚ
deriving DecidableEq

@[ext] theorem SumAcc.ext' {a b : SumAcc} (h1 : a.sum = b.sum) (h2 : a.clipMin = b.clipMin) (h3 : a.clipMax = b.clipMax)
    (h4 : a.expL0 = b.expL0) (h5 : a.varL0 = b.varL0) : a = b := by
  cases a; cases b; simp_all

/-- `SumCombiner.create_accumulator` (`per_partition_combiners.py:246-277`); the array of sums and the array of the numbers
of partitions are one list of pairs. -/
def sumAccOf (lo hi : ℚ) (l0 : ℕ) (rows : List (ℚ × ℕ)) : SumAcc where
  sum := (rows.map fun r => r.1).sum
  clipMin := (rows.map fun r => if r.1 < lo then npClip r.1 lo hi - r.1 else 0).sum
  clipMax := (rows.map fun r => if r.1 > hi then npClip r.1 lo hi - r.1 else 0).sum
  expL0 := (rows.map fun r => -npClip r.1 lo hi * (1 - probKeep l0 r.2)).sum
  varL0 := (rows.map fun r => npClip r.1 lo hi ^ 2 * probKeep l0 r.2 * (1 - probKeep l0 r.2)).sum

/-- `SumCombiner` for the metric SUM. -/
def sumAnalysis (lo hi : ℚ) (l0 : ℕ) (users : List UserRow) : SumAcc :=
  sumAccOf lo hi l0 (users.map fun u => (u.sum, u.nPartitions))

/-- `CountCombiner.create_accumulator` (`per_partition_combiners.py:312-319`). -/
def countAnalysis (linf l0 : ℕ) (users : List UserRow) : SumAcc :=
  sumAccOf 0 linf l0 (users.map fun u => ((u.count : ℚ), u.nPartitions))

/-- `PrivacyIdCountCombiner.create_accumulator` (`per_partition_combiners.py:336-344`). -/
def idCountAnalysis (l0 : ℕ) (users : List UserRow) : SumAcc :=
  sumAccOf 0 1 l0 (users.map fun u => ((if u.count > 0 then 1 else 0 : ℚ), u.nPartitions))

/-- `metrics.SumMetrics`, the fields filled from the accumulator. -/
structure SumMetrics where
  sum : ℝ
  clippingToMin : ℝ
  clippingToMax : ℝ
  expectedL0 : ℝ
  stdL0 : ℝ

/-- `SumCombiner.compute_metrics` (`per_partition_combiners.py:279-290`). -/
noncomputable def SumAcc.metrics (a : SumAcc) : SumMetrics where
  sum := a.sum
  clippingToMin := a.clipMin
  clippingToMax := a.clipMax
  expectedL0 := a.expL0
  stdL0 := Real.sqrt (a.varL0 : ℝ)

/-! ### Specification: random cross-partition bounding

The partitions of a user with `n` partitions are `0, …, n - 1`; the partition being analysed is number `0`.  Every user
keeps a uniformly random set of `min l0 n` of its partitions, independently of the others. -/

/-- The possible sets of partitions kept for a user with `n` partitions. -/
def keptSets (l0 n : ℕ) : Finset (Finset ℕ) := (Finset.range n).powersetCard (min l0 n)

/-- Average over a finite set. -/
def average (S : Finset (Finset ℕ)) (f : Finset ℕ → ℚ) : ℚ := (∑ s ∈ S, f s) / S.card

/-- Expectation over the independent choices of all users, given by their numbers of partitions. -/
def expect (l0 : ℕ) : List ℕ → (List (Finset ℕ) → ℚ) → ℚ
  | [], f => f []
  | n :: ns, f => average (keptSets l0 n) fun s => expect l0 ns fun ss => f (s :: ss)

/-- What remains of the values in the partition when the users keep the sets `ss`. -/
def keptSum : List ℚ → List (Finset ℕ) → ℚ
  | x :: xs, s :: ss => (if 0 ∈ s then x else 0) + keptSum xs ss
  | _, _ => 0

/-- Clamping to an interval, by cases. -/
def clamp (lo hi x : ℚ) : ℚ := if x < lo then lo else if x > hi then hi else x

/-! ### Lemmas -/

theorem npClip_eq_clamp {lo hi : ℚ} (h : lo ≤ hi) (x : ℚ) : npClip x lo hi = clamp lo hi x := by
  unfold npClip clamp
  split_ifs with h1 h2
  · rw [max_eq_right h1.le, min_eq_left h]
  · rw [max_eq_left (not_lt.1 h1), min_eq_right (le_of_lt h2)]
  · rw [max_eq_left (not_lt.1 h1), min_eq_left (not_lt.1 h2)]

theorem clip_errors {lo hi : ℚ} (h : lo ≤ hi) (x : ℚ) :
    (if x < lo then npClip x lo hi - x else 0) + (if x > hi then npClip x lo hi - x else 0) = npClip x lo hi - x := by
  rw [npClip_eq_clamp h]
  unfold clamp
  by_cases h1 : x < lo
  · have : ¬ x > hi := by linarith
    simp [h1, this]
  · by_cases h2 : x > hi
    · simp [h1, h2]
    · simp [h1, h2]

theorem card_keptSets_with (m n : ℕ) :
    (((Finset.range (n + 1)).powersetCard (m + 1)).filter fun s => 0 ∈ s).card = n.choose m := by
  have hsplit := Finset.card_filter_add_card_filter_not (s := (Finset.range (n + 1)).powersetCard (m + 1))
    (fun s => 0 ∈ s)
  have hno : ((Finset.range (n + 1)).powersetCard (m + 1)).filter (fun s => ¬ 0 ∈ s) =
      ((Finset.range (n + 1)).erase 0).powersetCard (m + 1) := by
    ext s
    simp only [Finset.mem_filter, Finset.mem_powersetCard, Finset.subset_erase]
    tauto
  rw [hno, Finset.card_powersetCard, Finset.card_powersetCard, Finset.card_erase_of_mem (by simp), Finset.card_range,
    Nat.add_sub_cancel, Nat.choose_succ_succ'] at hsplit
  omega

theorem card_keptSets (l0 n : ℕ) : (keptSets l0 n).card = n.choose (min l0 n) := by
  simp [keptSets]

theorem card_keptSets_pos (l0 n : ℕ) : 0 < (keptSets l0 n).card := by
  rw [card_keptSets]; exact Nat.choose_pos (Nat.min_le_right _ _)

/-- The share of the possible sets which contain the partition. -/
theorem share_kept (l0 n : ℕ) :
    (((keptSets l0 n).filter fun s => 0 ∈ s).card : ℚ) / (keptSets l0 n).card = probKeep l0 n := by
  unfold probKeep
  rcases n with _ | n
  · have : (keptSets l0 0).filter (fun s => 0 ∈ s) = ∅ := by
      ext s
      simp [keptSets]
      rintro rfl
      simp
    rw [this]; simp
  · have hpos : (0 : ℚ) < (keptSets l0 (n + 1)).card := by exact_mod_cast card_keptSets_pos l0 (n + 1)
    rw [if_pos (Nat.succ_pos n)]
    have hmin : min (1 : ℚ) ((l0 : ℚ) / ((n + 1 : ℕ) : ℚ)) = ((min l0 (n + 1) : ℕ) : ℚ) / ((n + 1 : ℕ) : ℚ) := by
      have hn : (0 : ℚ) < ((n + 1 : ℕ) : ℚ) := by exact_mod_cast Nat.succ_pos n
      rcases Nat.le_total l0 (n + 1) with h | h
      · rw [Nat.min_eq_left h, min_eq_right]
        rw [div_le_one hn]; exact_mod_cast h
      · rw [Nat.min_eq_right h, min_eq_left, div_self hn.ne']
        rw [le_div_iff₀ hn, one_mul]; exact_mod_cast h
    rw [hmin]
    rcases hm : min l0 (n + 1) with _ | m
    · have : (keptSets l0 (n + 1)).filter (fun s => 0 ∈ s) = ∅ := by
        ext s
        simp [keptSets, hm]
        rintro rfl
        simp
      rw [this]; simp
    · have h1 : ((keptSets l0 (n + 1)).filter fun s => 0 ∈ s).card = n.choose m := by
        unfold keptSets; rw [hm]; exact card_keptSets_with m n
      have h2 : (keptSets l0 (n + 1)).card = (n + 1).choose (m + 1) := by rw [card_keptSets, hm]
      rw [h1]
      rw [h2] at hpos ⊢
      rw [div_eq_div_iff hpos.ne' (by positivity)]
      have := Nat.add_one_mul_choose_eq n m
      have h3 : n.choose m * (n + 1) = (m + 1) * (n + 1).choose (m + 1) := by rw [mul_comm]; rw [this]; ring
      exact_mod_cast h3

/-- An average of something which only depends on whether the partition is kept. -/
theorem average_kept (l0 n : ℕ) (a b : ℚ) :
    average (keptSets l0 n) (fun s => if 0 ∈ s then a else b) = probKeep l0 n * a + (1 - probKeep l0 n) * b := by
  have hpos : (0 : ℚ) < (keptSets l0 n).card := by exact_mod_cast card_keptSets_pos l0 n
  have hsplit := Finset.card_filter_add_card_filter_not (s := keptSets l0 n) (fun s => 0 ∈ s)
  have hno : ((((keptSets l0 n).filter fun s => ¬ 0 ∈ s).card : ℕ) : ℚ) =
      (keptSets l0 n).card - ((keptSets l0 n).filter fun s => 0 ∈ s).card := by
    rw [eq_sub_iff_add_eq]; push_cast [← hsplit]; ring
  unfold average
  rw [Finset.sum_ite, Finset.sum_const, Finset.sum_const, nsmul_eq_mul, nsmul_eq_mul, hno, ← share_kept]
  field_simp

theorem average_congr {S : Finset (Finset ℕ)} {f g : Finset ℕ → ℚ} (h : ∀ s, f s = g s) : average S f = average S g := by
  have : f = g := funext h
  rw [this]

/-- First two moments of the kept sum, shifted by a constant. -/
theorem expectation_keptSum (l0 : ℕ) : ∀ (rows : List (ℚ × ℕ)) (c : ℚ),
    expect l0 (rows.map Prod.snd) (fun ss => c + keptSum (rows.map Prod.fst) ss) =
      c + (rows.map fun r => r.1 * probKeep l0 r.2).sum
  | [], c => by simp [expect, keptSum]
  | (x, n) :: rows, c => by
    simp only [List.map_cons, expect, keptSum, List.sum_cons]
    rw [average_congr (g := fun s => if 0 ∈ s then (c + x) + (rows.map fun r => r.1 * probKeep l0 r.2).sum
      else c + (rows.map fun r => r.1 * probKeep l0 r.2).sum), average_kept]
    · ring
    · intro s
      split_ifs with h
      · rw [← expectation_keptSum l0 rows (c + x)]; congr 1; funext ss; ring
      · rw [← expectation_keptSum l0 rows c]; congr 1; funext ss; ring

theorem expectation_sq (l0 : ℕ) : ∀ (rows : List (ℚ × ℕ)) (c : ℚ),
    expect l0 (rows.map Prod.snd) (fun ss => (c + keptSum (rows.map Prod.fst) ss) ^ 2) =
      (rows.map fun r => r.1 ^ 2 * probKeep l0 r.2 * (1 - probKeep l0 r.2)).sum +
        (c + (rows.map fun r => r.1 * probKeep l0 r.2).sum) ^ 2
  | [], c => by simp [expect, keptSum]
  | (x, n) :: rows, c => by
    simp only [List.map_cons, expect, keptSum, List.sum_cons]
    rw [average_congr (g := fun s => if 0 ∈ s
      then (rows.map fun r => r.1 ^ 2 * probKeep l0 r.2 * (1 - probKeep l0 r.2)).sum +
        ((c + x) + (rows.map fun r => r.1 * probKeep l0 r.2).sum) ^ 2
      else (rows.map fun r => r.1 ^ 2 * probKeep l0 r.2 * (1 - probKeep l0 r.2)).sum +
        (c + (rows.map fun r => r.1 * probKeep l0 r.2).sum) ^ 2), average_kept]
    · ring
    · intro s
      split_ifs with h
      · rw [← expectation_sq l0 rows (c + x)]; congr 1; funext ss; ring
      · rw [← expectation_sq l0 rows c]; congr 1; funext ss; ring

theorem probKeep_nonneg (l0 n : ℕ) : 0 ≤ probKeep l0 n := by
  unfold probKeep; split_ifs
  · exact le_min zero_le_one (by positivity)
  · exact le_refl _

theorem probKeep_le_one (l0 n : ℕ) : probKeep l0 n ≤ 1 := by
  unfold probKeep; split_ifs
  · exact min_le_left _ _
  · exact zero_le_one

theorem sumAccOf_var_nonneg (lo hi : ℚ) (l0 : ℕ) (rows : List (ℚ × ℕ)) : 0 ≤ (sumAccOf lo hi l0 rows).varL0 := by
  apply List.sum_nonneg
  intro x hx
  obtain ⟨r, _, rfl⟩ := List.mem_map.1 hx
  exact mul_nonneg (mul_nonneg (sq_nonneg _) (probKeep_nonneg _ _)) (by linarith [probKeep_le_one l0 r.2])

theorem sumAccOf_mean {lo hi : ℚ} (h : lo ≤ hi) (l0 : ℕ) (rows : List (ℚ × ℕ)) :
    (sumAccOf lo hi l0 rows).sum + (sumAccOf lo hi l0 rows).clipMin + (sumAccOf lo hi l0 rows).clipMax +
      (sumAccOf lo hi l0 rows).expL0 = (rows.map fun r => clamp lo hi r.1 * probKeep l0 r.2).sum := by
  induction rows with
  | nil => simp [sumAccOf]
  | cons r rows ih =>
    have he := clip_errors h r.1
    have hc := npClip_eq_clamp h r.1
    simp only [sumAccOf, List.map_cons, List.sum_cons] at ih ⊢
    rw [hc] at he ⊢
    linarith

theorem sumAccOf_var {lo hi : ℚ} (h : lo ≤ hi) (l0 : ℕ) (rows : List (ℚ × ℕ)) :
    (sumAccOf lo hi l0 rows).varL0 =
      (rows.map fun r => clamp lo hi r.1 ^ 2 * probKeep l0 r.2 * (1 - probKeep l0 r.2)).sum := by
  simp only [sumAccOf, npClip_eq_clamp h]

/-! ### C43 -/

/-- The contribution-bounded value of a partition: every user's value clamped to `[lo, hi]`, kept only when the user's
random set of partitions contains this one. -/
def boundedValue (lo hi : ℚ) (values : List ℚ) (ss : List (Finset ℕ)) : ℚ := keptSum (values.map (clamp lo hi)) ss

theorem boundedValue_moments {lo hi : ℚ} (h : lo ≤ hi) (l0 : ℕ) (rows : List (ℚ × ℕ)) :
    let a := sumAccOf lo hi l0 rows
    let X := boundedValue lo hi (rows.map Prod.fst)
    let μ := expect l0 (rows.map Prod.snd) X
    a.sum + a.clipMin + a.clipMax + a.expL0 = μ ∧ a.varL0 = expect l0 (rows.map Prod.snd) fun ss => (X ss - μ) ^ 2 := by
  intro a X μ
  set crows : List (ℚ × ℕ) := rows.map fun r => (clamp lo hi r.1, r.2) with hcrows
  have hfst : (rows.map Prod.fst).map (clamp lo hi) = crows.map Prod.fst := by simp [hcrows, Function.comp_def]
  have hsnd : rows.map Prod.snd = crows.map Prod.snd := by simp [hcrows, Function.comp_def]
  have hμ : μ = (crows.map fun r => r.1 * probKeep l0 r.2).sum := by
    have := expectation_keptSum l0 crows 0
    simp only [zero_add] at this
    rw [← this]
    have hX : X = fun ss => keptSum (crows.map Prod.fst) ss := by
      funext ss; simp only [X, boundedValue, hfst]
    rw [← hX, ← hsnd]
  refine ⟨?_, ?_⟩
  · rw [hμ, sumAccOf_mean h l0 rows]; simp [hcrows, Function.comp_def]
  · have := expectation_sq l0 crows (-μ)
    rw [← hμ] at this
    simp only [neg_add_cancel] at this
    rw [show (fun ss => (X ss - μ) ^ 2) = fun ss => (-μ + keptSum (crows.map Prod.fst) ss) ^ 2 from by
      funext ss; simp only [X, boundedValue, hfst]; ring, hsnd, this]
    rw [sumAccOf_var h l0 rows]; simp [hcrows, Function.comp_def]

/-- **C43** (the probability). `min(1, l0 / n)` is exactly the share of the sets of `min(l0, n)` out of `n` partitions which
contain a given partition. -/
theorem C43_probability (l0 n : ℕ) (hn : 0 < n) :
    (((keptSets l0 n).filter fun s => 0 ∈ s).card : ℚ) / (keptSets l0 n).card = min 1 ((l0 : ℚ) / n) := by
  rw [share_kept, probKeep, if_pos hn]

/-- **C43** for SUM. -/
theorem C43_sum {lo hi : ℚ} (h : lo ≤ hi) (l0 : ℕ) (users : List UserRow) :
    let m := (sumAnalysis lo hi l0 users).metrics
    let X := boundedValue lo hi (users.map UserRow.sum)
    let μ := expect l0 (users.map UserRow.nPartitions) X
    m.sum = (((users.map UserRow.sum).sum : ℚ) : ℝ) ∧
    m.sum + m.clippingToMin + m.clippingToMax + m.expectedL0 = μ ∧
    m.stdL0 ^ 2 = ((expect l0 (users.map UserRow.nPartitions) fun ss => (X ss - μ) ^ 2 : ℚ) : ℝ) := by
  intro m X μ
  have hm := boundedValue_moments h l0 (users.map fun u => (u.sum, u.nPartitions))
  have h1 : (users.map fun u => (u.sum, u.nPartitions)).map Prod.fst = users.map UserRow.sum := by
    simp [Function.comp_def]
  have h2 : (users.map fun u => (u.sum, u.nPartitions)).map Prod.snd = users.map UserRow.nPartitions := by
    simp [Function.comp_def]
  simp only [h1, h2] at hm
  obtain ⟨ha, hb⟩ := hm
  refine ⟨?_, ?_, ?_⟩
  · simp [m, SumAcc.metrics, sumAnalysis, sumAccOf, Function.comp_def]
  · simp only [m, SumAcc.metrics, sumAnalysis]; exact_mod_cast ha
  · simp only [m, SumAcc.metrics, sumAnalysis]
    rw [Real.sq_sqrt (by exact_mod_cast sumAccOf_var_nonneg lo hi l0 _)]
    exact_mod_cast hb

theorem sum_clamp_parts {lo hi : ℚ} (h : lo ≤ hi) (users : List UserRow) :
    (users.map fun u => max lo (min hi u.sum)).sum = (users.map UserRow.sum).sum
      + (users.map fun u => max (lo - u.sum) 0).sum + (users.map fun u => min (hi - u.sum) 0).sum := by
  induction users with
  | nil => simp
  | cons u us ih =>
    simp only [List.map_cons, List.sum_cons]
    rw [ih]
    have : max lo (min hi u.sum) = u.sum + max (lo - u.sum) 0 + min (hi - u.sum) 0 := by
      rcases le_total lo u.sum with a | a
      · rcases le_total hi u.sum with b | b
        · rw [min_eq_left b, max_eq_right h, max_eq_right (by linarith), min_eq_left (by linarith)]; ring
        · rw [min_eq_right b, max_eq_right a, max_eq_right (by linarith), min_eq_right (by linarith)]; ring
      · rw [min_eq_right (a.trans h), max_eq_left a, max_eq_left (by linarith), min_eq_right (by linarith)]; ring
    rw [this]
    ring

/-- **C43** (SUM, parts).  The report separates the errors: what raising small values to the lower bound adds, what lowering large
values to the upper bound takes away, and the expected loss by bounding the partitions of the users. -/
theorem C43_sum_parts {lo hi : ℚ} (h : lo ≤ hi) (l0 : ℕ) (users : List UserRow) :
    let m := (sumAnalysis lo hi l0 users).metrics
    let X := boundedValue lo hi (users.map UserRow.sum)
    m.clippingToMin = (((users.map fun u => max (lo - u.sum) 0).sum : ℚ) : ℝ) ∧
    m.clippingToMax = (((users.map fun u => min (hi - u.sum) 0).sum : ℚ) : ℝ) ∧
    m.expectedL0 = ((expect l0 (users.map UserRow.nPartitions) X - (users.map fun u => max lo (min hi u.sum)).sum : ℚ) : ℝ) := by
  intro m X
  obtain ⟨h1, h2, -⟩ := C43_sum h l0 users
  have hmin : m.clippingToMin = (((users.map fun u => max (lo - u.sum) 0).sum : ℚ) : ℝ) := by
    show (((sumAnalysis lo hi l0 users).clipMin : ℚ) : ℝ) = _
    unfold sumAnalysis sumAccOf
    dsimp only
    rw [List.map_map]
    congr 2
    refine List.map_congr_left fun u _ => ?_
    simp only [Function.comp, npClip]
    split_ifs with hlt
    · rw [max_eq_right hlt.le, min_eq_left h, max_eq_left (by linarith)]
    · rw [max_eq_right (by linarith)]
  have hmax : m.clippingToMax = (((users.map fun u => min (hi - u.sum) 0).sum : ℚ) : ℝ) := by
    show (((sumAnalysis lo hi l0 users).clipMax : ℚ) : ℝ) = _
    unfold sumAnalysis sumAccOf
    dsimp only
    rw [List.map_map]
    congr 2
    refine List.map_congr_left fun u _ => ?_
    simp only [Function.comp, npClip]
    split_ifs with hlt
    · rw [max_eq_left (by linarith), min_eq_right (by linarith), min_eq_left (by linarith)]
    · rw [min_eq_right (by linarith)]
  refine ⟨hmin, hmax, ?_⟩
  have hsum := sum_clamp_parts h users
  rw [hsum]
  push_cast
  have h2' : m.sum + m.clippingToMin + m.clippingToMax + m.expectedL0 = ((expect l0 (users.map UserRow.nPartitions) X : ℚ) : ℝ) := h2
  have h1' : m.sum = (((users.map UserRow.sum).sum : ℚ) : ℝ) := h1
  rw [h1', hmin, hmax] at h2'
  linarith

/-- **C43** for COUNT: a user keeps at most `linf` rows of the partition. -/
theorem C43_count (linf l0 : ℕ) (users : List UserRow) :
    let m := (countAnalysis linf l0 users).metrics
    let X : List (Finset ℕ) → ℚ := keptSum (users.map fun u => ((min u.count linf : ℕ) : ℚ))
    let μ := expect l0 (users.map UserRow.nPartitions) X
    m.sum = (((users.map UserRow.count).sum : ℕ) : ℝ) ∧ m.clippingToMin = 0 ∧
    m.sum + m.clippingToMax + m.expectedL0 = μ ∧
    m.stdL0 ^ 2 = ((expect l0 (users.map UserRow.nPartitions) fun ss => (X ss - μ) ^ 2 : ℚ) : ℝ) := by
  intro m X μ
  have hm := boundedValue_moments (lo := 0) (hi := linf) (by positivity) l0
    (users.map fun u => ((u.count : ℚ), u.nPartitions))
  have h1 : (users.map fun u => ((u.count : ℚ), u.nPartitions)).map Prod.fst = users.map fun u => (u.count : ℚ) := by
    simp [Function.comp_def]
  have h2 : (users.map fun u => ((u.count : ℚ), u.nPartitions)).map Prod.snd = users.map UserRow.nPartitions := by
    simp [Function.comp_def]
  have hX : boundedValue 0 linf (users.map fun u => (u.count : ℚ)) = X := by
    funext ss
    simp only [boundedValue, X, List.map_map]
    congr 2
    funext u
    simp only [Function.comp_apply, clamp]
    rw [if_neg (not_lt.2 (Nat.cast_nonneg _))]
    split_ifs with h
    · rw [Nat.min_eq_right (by exact_mod_cast h.le)]
    · rw [Nat.min_eq_left (by exact_mod_cast not_lt.1 h)]
  simp only [h1, h2, hX] at hm
  obtain ⟨ha, hb⟩ := hm
  have hmin : (countAnalysis linf l0 users).clipMin = 0 := by
    simp only [countAnalysis, sumAccOf, List.map_map]
    apply List.sum_eq_zero
    intro x hx
    obtain ⟨u, _, rfl⟩ := List.mem_map.1 hx
    exact if_neg (not_lt.2 (Nat.cast_nonneg _))
  refine ⟨?_, ?_, ?_, ?_⟩
  · simp only [m, SumAcc.metrics, countAnalysis, sumAccOf, List.map_map, Function.comp_def]
    have : ((users.map fun u => (u.count : ℚ)).sum) = (((users.map UserRow.count).sum : ℕ) : ℚ) := by
      rw [Nat.cast_list_sum, List.map_map]; rfl
    rw [this, Rat.cast_natCast]
  · simp only [m, SumAcc.metrics, hmin]; norm_num
  · have ha' : (countAnalysis linf l0 users).sum + (countAnalysis linf l0 users).clipMin +
      (countAnalysis linf l0 users).clipMax + (countAnalysis linf l0 users).expL0 = μ := ha
    rw [hmin, add_zero] at ha'
    simp only [m, SumAcc.metrics]; exact_mod_cast ha'
  · simp only [m, SumAcc.metrics, countAnalysis]
    rw [Real.sq_sqrt (by exact_mod_cast sumAccOf_var_nonneg _ _ l0 _)]
    exact_mod_cast hb

/-- **C43** for PRIVACY_ID_COUNT: nothing is clipped, and the bounded value is the number of users which keep the
partition. -/
theorem C43_privacy_id_count (l0 : ℕ) (users : List UserRow) (hpos : ∀ u ∈ users, 0 < u.count) :
    let m := (idCountAnalysis l0 users).metrics
    let X : List (Finset ℕ) → ℚ := keptSum (users.map fun _ => 1)
    let μ := expect l0 (users.map UserRow.nPartitions) X
    m.sum = ((users.length : ℕ) : ℝ) ∧ m.clippingToMin = 0 ∧ m.clippingToMax = 0 ∧
    m.sum + m.expectedL0 = μ ∧
    m.stdL0 ^ 2 = ((expect l0 (users.map UserRow.nPartitions) fun ss => (X ss - μ) ^ 2 : ℚ) : ℝ) := by
  intro m X μ
  have hrows : (users.map fun u => ((if u.count > 0 then 1 else 0 : ℚ), u.nPartitions)) =
      users.map fun u => ((1 : ℚ), u.nPartitions) :=
    List.map_congr_left fun u hu => by rw [if_pos (hpos u hu)]
  have hm := boundedValue_moments (lo := 0) (hi := 1) zero_le_one l0 (users.map fun u => ((1 : ℚ), u.nPartitions))
  have h1 : (users.map fun u => ((1 : ℚ), u.nPartitions)).map Prod.fst = users.map fun _ => (1 : ℚ) := by
    simp [Function.comp_def]
  have h2 : (users.map fun u => ((1 : ℚ), u.nPartitions)).map Prod.snd = users.map UserRow.nPartitions := by
    simp [Function.comp_def]
  have hX : boundedValue 0 1 (users.map fun _ => (1 : ℚ)) = X := by
    funext ss
    have : ¬ (1 : ℚ) < 0 := by norm_num
    simp [boundedValue, X, clamp, this]
  simp only [h1, h2, hX] at hm
  obtain ⟨ha, hb⟩ := hm
  have hacc : idCountAnalysis l0 users = sumAccOf 0 1 l0 (users.map fun u => ((1 : ℚ), u.nPartitions)) := by
    unfold idCountAnalysis; rw [hrows]
  have hmin : (idCountAnalysis l0 users).clipMin = 0 := by
    rw [hacc]; simp [sumAccOf, Function.comp_def]
  have hmax : (idCountAnalysis l0 users).clipMax = 0 := by
    rw [hacc]; simp [sumAccOf, Function.comp_def]
  refine ⟨?_, ?_, ?_, ?_, ?_⟩
  · simp only [m, SumAcc.metrics, hacc]; simp [sumAccOf, Function.comp_def]
  · simp only [m, SumAcc.metrics, hmin]; norm_num
  · simp only [m, SumAcc.metrics, hmax]; norm_num
  · rw [← hacc, hmin, hmax, add_zero, add_zero] at ha
    simp only [m, SumAcc.metrics]; exact_mod_cast ha
  · simp only [m, SumAcc.metrics]
    rw [hacc, Real.sq_sqrt (by exact_mod_cast sumAccOf_var_nonneg _ _ l0 _)]
    exact_mod_cast hb

/-- Two users; the first has 3 partitions and value 10 clipped to 4, the second one partition and value -2 clipped to 0;
`l0 = 1`.  The errors are all different from zero. -/
example : sumAnalysis 0 4 1 [⟨3, 10, 3⟩, ⟨1, -2, 1⟩] = ⟨8, 2, -6, -8 / 3, 32 / 9⟩ := by decide +kernel

example : expect 1 [3, 1] (boundedValue 0 4 [10, -2]) = 4 / 3 := by decide +kernel

end PDP.Analysis
