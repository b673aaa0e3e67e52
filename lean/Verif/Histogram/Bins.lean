import Mathlib.Tactic.Linarith
import Mathlib.Tactic.Ring
import Mathlib.Tactic.NormNum
import Mathlib.Algebra.Order.Ring.Nat
import Mathlib.Data.List.Basic

/-!
# Logarithmic bins of integers

Model of `_to_bin_lower_upper_logarithmic` (`dataset_histograms/count_histogram_computation.py:35-54`) and
of `generate_possible_contribution_bounds` (`private_contribution_bounds.py:179-196`), with properties
C31 and C32.
-/

namespace PDP.Histogram

/-- `count_histogram_computation.py:48-50`: `while value > bound: bound *= 10`.  The condition `0 < bound`
holds in every call and is there for termination only. -/
def growBound (value bound : ℕ) : ℕ :=
  if h : bound < value ∧ 0 < bound then growBound value (bound * 10) else bound
  termination_by value - bound
  decreasing_by omega

/-- `count_histogram_computation.py:35-54` `_to_bin_lower_upper_logarithmic`. -/
def binBounds (value : ℕ) : ℕ × ℕ :=
  let bound := growBound value 1000
  let roundBase := bound / 1000
  let lower := value / roundBase * roundBase
  let binSize := if value ≠ bound then roundBase else roundBase * 10
  (lower, lower + binSize)

/-- `private_contribution_bounds.py:188-196`: the loop of `generate_possible_contribution_bounds`. -/
def boundsLoop (upper current power : ℕ) : List ℕ :=
  if _h : current ≤ upper then
    let power' := if power ≤ current then power * 10 else power
    current :: boundsLoop upper (current + max 1 (power' / 1000)) power'
  else []
  termination_by upper + 1 - current
  decreasing_by omega

/-- `private_contribution_bounds.py:179-196` `generate_possible_contribution_bounds`. -/
def possibleBounds (upper : ℕ) : List ℕ := boundsLoop upper 1 10

/-! ### Lemmas -/

theorem growBound_spec (value e : ℕ) :
    ∃ j, growBound value (10 ^ (e + 3)) = 10 ^ (e + j + 3) ∧ value ≤ 10 ^ (e + j + 3) ∧
      (j ≠ 0 → 10 ^ (e + j + 2) < value) := by
  induction hn : value - 10 ^ (e + 3) using Nat.strong_induction_on generalizing e with
  | _ n ih =>
    have hpos : 0 < 10 ^ (e + 3) := by positivity
    rw [growBound]
    by_cases h : 10 ^ (e + 3) < value
    · rw [dif_pos ⟨h, hpos⟩]
      have h10 : 10 ^ (e + 3) * 10 = 10 ^ (e + 1 + 3) := by ring
      rw [h10]
      obtain ⟨j, h1, h2, h3⟩ := ih (value - 10 ^ (e + 1 + 3)) (by rw [← h10]; omega) (e + 1) rfl
      refine ⟨j + 1, ?_, ?_, ?_⟩
      · rw [h1]; congr 1; omega
      · have : e + (j + 1) + 3 = e + 1 + j + 3 := by omega
        rw [this]; exact h2
      · intro _
        by_cases hj : j = 0
        · subst hj; exact h
        · have : e + (j + 1) + 2 = e + 1 + j + 2 := by omega
          rw [this]; exact h3 hj
    · rw [dif_neg (fun hh => h hh.1)]
      exact ⟨0, rfl, by simpa using h, by simp⟩

/-- The bin of a value in closed form: with `10^j` the width of bins around the value. -/
theorem binBounds_spec (v : ℕ) :
    ∃ j, v ≤ 1000 * 10 ^ j ∧ (j ≠ 0 → 100 * 10 ^ j < v) ∧
      binBounds v = (v / 10 ^ j * 10 ^ j, v / 10 ^ j * 10 ^ j + if v = 1000 * 10 ^ j then 10 ^ (j + 1) else 10 ^ j) := by
  obtain ⟨j, h1, h2, h3⟩ := growBound_spec v 0
  have e1 : (10 : ℕ) ^ (0 + j + 3) = 1000 * 10 ^ j := by ring
  have e2 : j ≠ 0 → (10 : ℕ) ^ (0 + j + 2) = 100 * 10 ^ j := fun _ => by ring
  refine ⟨j, by rw [← e1]; exact h2, fun hj => by rw [← e2 hj]; exact h3 hj, ?_⟩
  have hb : growBound v 1000 = 1000 * 10 ^ j := by rw [← e1]; exact h1
  unfold binBounds
  simp only [hb]
  rw [Nat.mul_div_cancel_left _ (by norm_num)]
  by_cases hv : v = 1000 * 10 ^ j
  · simp [hv, pow_succ]
  · simp [hv]

/-- The width is determined by the magnitude. -/
theorem width_unique {v w i j : ℕ} (h1 : i ≠ 0 → 100 * 10 ^ i < v) (h2 : w ≤ 1000 * 10 ^ j) (hvw : v ≤ w) : i ≤ j := by
  by_contra h
  push Not at h
  have hi : i ≠ 0 := by omega
  have : 10 ^ (j + 1) ≤ 10 ^ i := Nat.pow_le_pow_right (by norm_num) h
  have h4 := h1 hi
  rw [pow_succ] at this
  omega

theorem div_mul_bounds (v b : ℕ) (hb : 0 < b) : v / b * b ≤ v ∧ v < v / b * b + b := by
  constructor
  · exact Nat.div_mul_le_self v b
  · have := Nat.lt_div_mul_add (a := v) hb; omega

/-- Anything between the ends of a bin has the same bin. -/
theorem binBounds_eq_of_mem {v w : ℕ} (hl : (binBounds v).1 ≤ w) (hu : w < (binBounds v).2) :
    binBounds w = binBounds v := by
  obtain ⟨j, h1, h2, h3⟩ := binBounds_spec v
  obtain ⟨i, g1, g2, g3⟩ := binBounds_spec w
  rw [h3] at hl hu
  simp only at hl hu
  have hp : 0 < 10 ^ j := by positivity
  have hps : (10 : ℕ) ^ (j + 1) = 10 ^ j * 10 := by ring
  obtain ⟨a1, a2⟩ := div_mul_bounds v (10 ^ j) hp
  by_cases hv : v = 1000 * 10 ^ j
  · -- the bin starting at a power of ten
    rw [if_pos hv] at hu
    have hq : v / 10 ^ j * 10 ^ j = 1000 * 10 ^ j := by rw [hv, Nat.mul_div_cancel _ hp]
    rw [hq] at hl hu
    rw [h3, if_pos hv, hq, g3]
    by_cases hw : w = 1000 * 10 ^ j
    · have hwv : w = v := hw.trans hv.symm
      have hij : i = j := le_antisymm (width_unique g2 h1 (by omega)) (width_unique h2 g1 (by omega))
      rw [hij, hw, Nat.mul_div_cancel _ hp, if_pos rfl]
    · have hij : i = j + 1 := by
        apply le_antisymm
        · exact width_unique (w := w) (j := j + 1) g2 (by rw [hps]; omega) le_rfl
        · by_contra hcon
          have hi : i ≤ j := by omega
          have : 10 ^ i ≤ 10 ^ j := Nat.pow_le_pow_right (by norm_num) hi
          omega
      have hne : ¬ w = 1000 * 10 ^ (j + 1) := by rw [hps]; omega
      have hd : w / 10 ^ (j + 1) = 100 := by
        apply Nat.div_eq_of_lt_le <;> rw [hps] at * <;> omega
      rw [hij, if_neg hne, hd, hps]
      refine Prod.ext ?_ ?_ <;> simp only <;> ring
  · rw [if_neg hv] at hu
    have hvlt : v < 1000 * 10 ^ j := lt_of_le_of_ne h1 hv
    have hqlt : v / 10 ^ j < 1000 := Nat.div_lt_of_lt_mul (by rw [mul_comm]; exact hvlt)
    have hq : w / 10 ^ j = v / 10 ^ j := by
      apply Nat.div_eq_of_lt_le
      · exact hl
      · rw [Nat.add_mul, one_mul]; exact hu
    have hub : (v / 10 ^ j + 1) * 10 ^ j ≤ 1000 * 10 ^ j := Nat.mul_le_mul_right _ (by omega)
    rw [Nat.add_mul, one_mul] at hub
    have hwlt : w < 1000 * 10 ^ j := by omega
    have hij1 : i ≤ j := width_unique (w := w) g2 hwlt.le le_rfl
    by_cases hji : j = i
    · subst hji
      rw [h3, g3, hq, if_neg hv, if_neg (by omega)]
    · -- then `w` is the power of ten below, and the bin of `v` starts there
      have hj0 : j ≠ 0 := by omega
      obtain ⟨m, rfl⟩ : ∃ m, j = m + 1 := ⟨j - 1, by omega⟩
      have hpm : (10 : ℕ) ^ (m + 1) = 10 ^ m * 10 := by ring
      have hpm0 : 0 < 10 ^ m := by positivity
      have h2' := h2 hj0
      have hq100 : 100 ≤ v / 10 ^ (m + 1) := by
        rw [Nat.le_div_iff_mul_le hp]; exact h2'.le
      have hw1 : 100 * 10 ^ (m + 1) ≤ w := le_trans (Nat.mul_le_mul_right _ hq100) hl
      have him : 10 ^ i ≤ 10 ^ m := Nat.pow_le_pow_right (by norm_num) (by omega)
      have hw2 : w = 1000 * 10 ^ m := by omega
      have hi : i = m := by
        apply le_antisymm (by omega)
        by_contra hcon
        have : 10 ^ (i + 1) ≤ 10 ^ m := Nat.pow_le_pow_right (by norm_num) (by omega)
        rw [pow_succ] at this
        omega
      have hqv : v / 10 ^ (m + 1) = 100 := by
        rw [← hq, hw2, hpm]
        apply Nat.div_eq_of_lt_le <;> omega
      subst hi
      rw [h3, if_neg hv, hqv, g3, if_pos hw2, hw2, Nat.mul_div_cancel _ hpm0, hpm]
      refine Prod.ext ?_ ?_ <;> simp only <;> ring

theorem mem_bin (v : ℕ) : (binBounds v).1 ≤ v ∧ v < (binBounds v).2 := by
  obtain ⟨j, h1, h2, h3⟩ := binBounds_spec v
  have hp : 0 < 10 ^ j := by positivity
  obtain ⟨a1, a2⟩ := div_mul_bounds v (10 ^ j) hp
  rw [h3]
  refine ⟨a1, ?_⟩
  simp only
  split
  · rw [pow_succ]; omega
  · exact a2

theorem bin_lower_pos {v : ℕ} (hv : 1 ≤ v) : 1 ≤ (binBounds v).1 := by
  obtain ⟨j, h1, h2, h3⟩ := binBounds_spec v
  have hp : 0 < 10 ^ j := by positivity
  rw [h3]
  simp only
  have : 10 ^ j ≤ v := by
    by_cases hj : j = 0
    · subst hj; simpa using hv
    · have := h2 hj; omega
  have h4 : 1 ≤ v / 10 ^ j := (Nat.one_le_div_iff hp).mpr this
  calc 1 = 1 * 1 := rfl
    _ ≤ v / 10 ^ j * 10 ^ j := Nat.mul_le_mul h4 hp

/-! ### C32 -/

/-- **C32.** Every integer lies in its bin; every integer of a bin has the same bin; and two bins are equal
or disjoint.  The lower end of a bin of a positive integer is positive. -/
theorem C32_bins_partition_integers :
    (∀ v, (binBounds v).1 ≤ v ∧ v < (binBounds v).2) ∧
    (∀ v w, (binBounds v).1 ≤ w → w < (binBounds v).2 → binBounds w = binBounds v) ∧
    (∀ v w, binBounds v = binBounds w ∨ (binBounds v).2 ≤ (binBounds w).1 ∨ (binBounds w).2 ≤ (binBounds v).1) ∧
    (∀ v, 1 ≤ v → 1 ≤ (binBounds v).1) := by
  refine ⟨mem_bin, fun v w => binBounds_eq_of_mem, ?_, fun v => bin_lower_pos⟩
  intro v w
  by_cases h1 : (binBounds v).2 ≤ (binBounds w).1
  · exact Or.inr (Or.inl h1)
  by_cases h2 : (binBounds w).2 ≤ (binBounds v).1
  · exact Or.inr (Or.inr h2)
  left
  push Not at h1 h2
  by_cases hc : (binBounds v).1 ≤ (binBounds w).1
  · have e1 := binBounds_eq_of_mem (v := v) (w := (binBounds w).1) hc h1
    have e2 := binBounds_eq_of_mem (v := w) (w := (binBounds w).1) le_rfl
      (lt_of_le_of_lt (mem_bin w).1 (mem_bin w).2)
    exact e1.symm.trans e2
  · have e1 := binBounds_eq_of_mem (v := w) (w := (binBounds v).1) (by omega) h2
    have e2 := binBounds_eq_of_mem (v := v) (w := (binBounds v).1) le_rfl
      (lt_of_le_of_lt (mem_bin v).1 (mem_bin v).2)
    exact e2.symm.trans e1

/-- **C32.** The relative width of a bin is at most 1 % of its lower end, and bins below 1000 contain one integer. -/
theorem C32_bin_width (v : ℕ) (hv : 1 ≤ v) :
    (v < 1000 → binBounds v = (v, v + 1)) ∧
    (1000 ≤ v → 100 * ((binBounds v).2 - (binBounds v).1) ≤ (binBounds v).1) := by
  obtain ⟨j, h1, h2, h3⟩ := binBounds_spec v
  have hp : 0 < 10 ^ j := by positivity
  have hps : (10 : ℕ) ^ (j + 1) = 10 ^ j * 10 := by ring
  constructor
  · intro hlt
    have hj : j = 0 := by
      by_contra hj
      have := h2 hj
      have h4 : 10 ^ 1 ≤ 10 ^ j := Nat.pow_le_pow_right (by norm_num) (by omega)
      omega
    subst hj
    rw [h3, if_neg (by omega)]; simp
  · intro hge
    rw [h3]
    simp only [Nat.add_sub_cancel_left]
    by_cases hv2 : v = 1000 * 10 ^ j
    · rw [if_pos hv2, hv2, Nat.mul_div_cancel _ hp, hps]; omega
    · rw [if_neg hv2]
      apply Nat.mul_le_mul_right
      rw [Nat.le_div_iff_mul_le hp]
      by_cases hj : j = 0
      · subst hj; omega
      · exact (h2 hj).le

example : binBounds 999 = (999, 1000) ∧ binBounds 1000 = (1000, 1010) ∧ binBounds 1009 = (1000, 1010) ∧
    binBounds 12345 = (12300, 12400) ∧ binBounds 10000 = (10000, 10100) := by
  simp [binBounds, growBound]

/-! ### C31 -/

/-- A positive integer with at most three significant digits. -/
def ThreeDigits (n : ℕ) : Prop := ∃ d k, d < 1000 ∧ n = d * 10 ^ k

theorem lower_self_iff (n : ℕ) : (binBounds n).1 = n ↔ ThreeDigits n := by
  obtain ⟨j, h1, h2, h3⟩ := binBounds_spec n
  have hp : 0 < 10 ^ j := by positivity
  rw [h3]
  simp only
  constructor
  · intro h
    have hq : n / 10 ^ j ≤ 1000 := by
      rw [Nat.div_le_iff_le_mul_add_pred hp]; rw [mul_comm]; omega
    rcases Nat.lt_or_eq_of_le hq with hlt | heq
    · exact ⟨n / 10 ^ j, j, hlt, h.symm⟩
    · refine ⟨100, j + 1, by norm_num, ?_⟩
      rw [← h, heq, pow_succ]; ring
  · rintro ⟨d, k, hd, rfl⟩
    have hjk : j ≤ k := by
      by_contra hcon
      have hj0 : j ≠ 0 := by omega
      have h4 := h2 hj0
      have h5 : 10 ^ (k + 1) ≤ 10 ^ j := Nat.pow_le_pow_right (by norm_num) (by omega)
      have h6 : d * 10 ^ k ≤ 999 * 10 ^ k := Nat.mul_le_mul_right _ (by omega)
      have h7 : 0 < 10 ^ k := by positivity
      rw [pow_succ] at h5
      omega
    apply Nat.div_mul_cancel
    exact Dvd.dvd.mul_left (pow_dvd_pow 10 hjk) d

/-- Invariant of the loop: `current` starts a bin and `power` is the power of ten above it. -/
structure LoopInv (current power : ℕ) : Prop where
  lower : (binBounds current).1 = current
  pos : 1 ≤ current
  power : ∃ k, power = 10 ^ (k + 1) ∧ current ≤ 10 ^ (k + 1) ∧ (k ≠ 0 → 10 ^ k < current)

theorem step_eq {current power : ℕ} (h : LoopInv current power) :
    let power' := if power ≤ current then power * 10 else power
    current + max 1 (power' / 1000) = (binBounds current).2 ∧
      LoopInv (current + max 1 (power' / 1000)) power' := by
  obtain ⟨hl, hpos, k, hk, hle, hgt⟩ := h
  obtain ⟨j, h1, h2, h3⟩ := binBounds_spec current
  have hpj : 0 < 10 ^ j := by positivity
  have hpjs : (10 : ℕ) ^ (j + 1) = 10 ^ j * 10 := by ring
  have hll : current / 10 ^ j * 10 ^ j = current := by rw [h3] at hl; exact hl
  -- relation of the power to the width
  have hstep : current + max 1 ((if power ≤ current then power * 10 else power) / 1000) = (binBounds current).2 := by
    rw [h3]
    simp only [hll]
    congr 1
    by_cases hc : power ≤ current
    · have hcp : current = 10 ^ (k + 1) := by omega
      rw [if_pos hc]
      by_cases hk2 : k < 2
      · have : k = 0 ∨ k = 1 := by omega
        have hj0 : j = 0 := by
          by_contra hj
          have := h2 hj
          have h4 : 10 ^ 1 ≤ 10 ^ j := Nat.pow_le_pow_right (by norm_num) (by omega)
          rcases (by omega : k = 0 ∨ k = 1) with rfl | rfl <;> omega
        subst hj0
        rcases this with rfl | rfl
        · rw [hk, if_neg (by rw [hcp]; norm_num)]; norm_num
        · rw [hk, if_neg (by rw [hcp]; norm_num)]; norm_num
      · obtain ⟨m, rfl⟩ : ∃ m, k = m + 2 := ⟨k - 2, by omega⟩
        have hpm : (10 : ℕ) ^ (m + 2 + 1) = 1000 * 10 ^ m := by ring
        have hpm0 : 0 < 10 ^ m := by positivity
        have hjm : j = m := by
          apply le_antisymm
          · exact width_unique (w := current) h2 (by rw [hcp, hpm]) le_rfl
          · by_contra hcon
            have : 10 ^ (j + 1) ≤ 10 ^ m := Nat.pow_le_pow_right (by norm_num) (by omega)
            omega
        subst hjm
        rw [if_pos (by rw [hcp, hpm]), hk, hpm, hpjs]
        rw [show 1000 * 10 ^ j * 10 = 10 ^ j * 10 * 1000 by ring, Nat.mul_div_cancel _ (by norm_num)]
        omega
    · rw [if_neg hc]
      have hclt : current < 10 ^ (k + 1) := by omega
      by_cases hk2 : k < 2
      · have hj0 : j = 0 := by
          by_contra hj
          have := h2 hj
          have h4 : 10 ^ 1 ≤ 10 ^ j := Nat.pow_le_pow_right (by norm_num) (by omega)
          rcases (by omega : k = 0 ∨ k = 1) with rfl | rfl <;> omega
        subst hj0
        rcases (by omega : k = 0 ∨ k = 1) with rfl | rfl
        · rw [hk, if_neg (by omega)]; norm_num
        · rw [hk, if_neg (by omega)]; norm_num
      · obtain ⟨m, rfl⟩ : ∃ m, k = m + 2 := ⟨k - 2, by omega⟩
        have hpm : (10 : ℕ) ^ (m + 2 + 1) = 1000 * 10 ^ m := by ring
        have hpm2 : (10 : ℕ) ^ (m + 2) = 100 * 10 ^ m := by ring
        have hpm0 : 0 < 10 ^ m := by positivity
        have hgt' := hgt (by omega)
        have hjm : j = m := by
          apply le_antisymm
          · exact width_unique (w := current) h2 (by rw [hpm] at hclt; omega) le_rfl
          · by_contra hcon
            have : 10 ^ (j + 1) ≤ 10 ^ m := Nat.pow_le_pow_right (by norm_num) (by omega)
            omega
        subst hjm
        rw [if_neg (by omega), hk, hpm, Nat.mul_div_cancel_left _ (by norm_num)]
        omega
  refine ⟨hstep, ?_, by omega, ?_⟩
  · -- the next value starts a bin: it has at most three significant digits
    rw [hstep]
    rw [lower_self_iff, h3]
    simp only [hll]
    by_cases hv : current = 1000 * 10 ^ j
    · rw [if_pos hv]
      exact ⟨101, j + 1, by norm_num, by rw [hpjs]; omega⟩
    · rw [if_neg hv]
      have hlt : current / 10 ^ j < 1000 := Nat.div_lt_of_lt_mul (by rw [mul_comm]; omega)
      by_cases h999 : current / 10 ^ j = 999
      · refine ⟨100, j + 1, by norm_num, ?_⟩
        rw [h999] at hll; rw [hpjs]; omega
      · exact ⟨current / 10 ^ j + 1, j, by omega, by rw [Nat.add_mul, hll, one_mul]⟩
  · by_cases hc : power ≤ current
    · have hcp : current = 10 ^ (k + 1) := by omega
      simp only [if_pos hc]
      refine ⟨k + 1, by rw [hk, pow_succ 10 (k + 1)], ?_, fun _ => by rw [hcp]; omega⟩
      rw [hk, hcp]
      have : (10 : ℕ) ^ (k + 1 + 1) = 10 ^ (k + 1) * 10 := by ring
      have h5 : 10 ≤ 10 ^ (k + 1) := by
        calc 10 = 10 ^ 1 := rfl
          _ ≤ _ := Nat.pow_le_pow_right (by norm_num) (by omega)
      rw [this]; omega
    · simp only [if_neg hc]
      refine ⟨k, hk, ?_, fun hk0 => by have := hgt hk0; omega⟩
      have hclt : current < 10 ^ (k + 1) := by omega
      by_cases hk2 : k < 2
      · rcases (by omega : k = 0 ∨ k = 1) with rfl | rfl <;> rw [hk] <;> norm_num <;> omega
      · obtain ⟨m, rfl⟩ : ∃ m, k = m + 2 := ⟨k - 2, by omega⟩
        have hpm : (10 : ℕ) ^ (m + 2 + 1) = 1000 * 10 ^ m := by ring
        have hpm0 : 0 < 10 ^ m := by positivity
        -- `current` is a multiple of the width
        have hdvd : 10 ^ m ∣ current := by
          have hjm : m ≤ j := by
            by_contra hcon
            have h9 : 10 ^ (j + 1) ≤ 10 ^ m := Nat.pow_le_pow_right (by norm_num) (by omega)
            have := hgt (by omega)
            have h8 : (10 : ℕ) ^ (m + 2) = 100 * 10 ^ m := by ring
            omega
          exact Dvd.dvd.trans (pow_dvd_pow 10 hjm) ⟨current / 10 ^ j, by rw [mul_comm]; exact hll.symm⟩
        obtain ⟨c, hcc⟩ := hdvd
        rw [hpm] at hclt
        have : c < 1000 := by
          by_contra hcon
          push Not at hcon
          have : 10 ^ m * 1000 ≤ 10 ^ m * c := Nat.mul_le_mul_left _ hcon
          omega
        have h9 : 10 ^ m * (c + 1) ≤ 10 ^ m * 1000 := Nat.mul_le_mul_left _ (by omega)
        rw [hk, hpm, Nat.mul_div_cancel_left _ (by norm_num), Nat.max_eq_right hpm0, hcc]
        rw [Nat.mul_add, mul_one] at h9
        omega

theorem boundsLoop_spec (upper current power : ℕ) (h : LoopInv current power) :
    (boundsLoop upper current power).Pairwise (· < ·) ∧
    ∀ n, n ∈ boundsLoop upper current power ↔ current ≤ n ∧ n ≤ upper ∧ (binBounds n).1 = n := by
  induction hn : upper + 1 - current using Nat.strong_induction_on generalizing current power with
  | _ m ih =>
    rw [boundsLoop]
    by_cases hc : current ≤ upper
    · rw [dif_pos hc]
      obtain ⟨hs, hinv⟩ := step_eq h
      simp only at hs hinv ⊢
      obtain ⟨i1, i2⟩ := ih _ (by omega) _ _ hinv rfl
      refine ⟨List.pairwise_cons.mpr ⟨?_, i1⟩, ?_⟩
      · intro n hn
        have := (i2 n).mp hn
        omega
      · intro n
        rw [List.mem_cons, i2 n]
        constructor
        · rintro (rfl | ⟨h1, h2, h3⟩)
          · exact ⟨le_rfl, hc, h.lower⟩
          · exact ⟨by omega, h2, h3⟩
        · rintro ⟨h1, h2, h3⟩
          by_cases hlt : n < (binBounds current).2
          · left
            have he := binBounds_eq_of_mem (v := current) (w := n) (by rw [h.lower]; exact h1) hlt
            rw [← h3, he, h.lower]
          · right
            exact ⟨by rw [hs]; omega, h2, h3⟩
    · rw [dif_neg hc]
      refine ⟨List.Pairwise.nil, ?_⟩
      intro n
      simp only [List.not_mem_nil, false_iff]
      rintro ⟨h1, h2, -⟩
      omega

theorem loopInv_start : LoopInv 1 10 :=
  ⟨by simp [binBounds, growBound], le_rfl, 0, rfl, by norm_num, by simp⟩

/-- **C31.** `generate_possible_contribution_bounds(upper)` returns, in strictly increasing order, exactly the
integers from 1 to `upper` with at most three significant digits. -/
theorem C31_possible_bounds (upper : ℕ) :
    (possibleBounds upper).Pairwise (· < ·) ∧
    ∀ n, n ∈ possibleBounds upper ↔ 1 ≤ n ∧ n ≤ upper ∧ ThreeDigits n := by
  obtain ⟨h1, h2⟩ := boundsLoop_spec upper 1 10 loopInv_start
  refine ⟨h1, fun n => ?_⟩
  rw [possibleBounds, h2 n, lower_self_iff]

/-- **C31.** The candidates are exactly the lower ends of histogram bins: every count up to `upper` has the
lower end of its bin among them. -/
theorem C31_candidates_are_bin_lowers (upper n : ℕ) :
    n ∈ possibleBounds upper ↔ n ≤ upper ∧ ∃ v, 1 ≤ v ∧ (binBounds v).1 = n := by
  rw [(C31_possible_bounds upper).2 n, ← lower_self_iff]
  constructor
  · rintro ⟨h1, h2, h3⟩; exact ⟨h2, n, h1, h3⟩
  · rintro ⟨h1, v, hv, rfl⟩
    have := binBounds_eq_of_mem (v := v) (w := (binBounds v).1) le_rfl
      (lt_of_le_of_lt (mem_bin v).1 (mem_bin v).2)
    exact ⟨bin_lower_pos hv, h1, by rw [this]⟩

/-- There is at least one candidate as soon as the upper bound is positive, and none otherwise. -/
theorem C31_candidates_nonempty_iff (upper : ℕ) : possibleBounds upper ≠ [] ↔ 1 ≤ upper := by
  constructor
  · intro h
    obtain ⟨n, hn⟩ := List.exists_mem_of_ne_nil _ h
    have := ((C31_possible_bounds upper).2 n).mp hn
    omega
  · intro h hnil
    have : 1 ∈ possibleBounds upper :=
      ((C31_possible_bounds upper).2 1).mpr ⟨le_rfl, h, 1, 0, by norm_num, by norm_num⟩
    rw [hnil] at this
    simp at this

example : 1010 ∈ possibleBounds 1015 ∧ 1005 ∉ possibleBounds 1015 ∧ 999 ∈ possibleBounds 1015 := by
  refine ⟨(C31_candidates_are_bin_lowers _ _).mpr ⟨by norm_num, 1013, by norm_num, by simp [binBounds, growBound]⟩, ?_,
    (C31_candidates_are_bin_lowers _ _).mpr ⟨by norm_num, 999, by norm_num, by simp [binBounds, growBound]⟩⟩
  intro h
  rw [(C31_possible_bounds _).2, ← lower_self_iff] at h
  simp [binBounds, growBound] at h

end PDP.Histogram
