import Verif.EndToEnd.Probability
import Verif.EndToEnd.Contracts
import Mathlib.Probability.Independence.InfinitePi
import Mathlib.Probability.Moments.Variance
import Mathlib.Probability.Distributions.Gaussian.Real
import Mathlib.Probability.Independence.Basic
import Mathlib.Probability.CDF
import Mathlib.Probability.StrongLaw
import Mathlib.MeasureTheory.Measure.Prod
import Mathlib.MeasureTheory.Measure.Lebesgue.Basic
import Mathlib.Data.List.Sort
import Mathlib.Order.Filter.AtTopBot.Field
import Mathlib.Topology.Order.IntermediateValue

/-!
# Monte-Carlo quantiles of Laplace plus Gaussian noise (`analysis/probability_computations.py:20-35`)

`np.random.laplace` and `np.random.normal` are sequences of random variables with the laws of the documentation; only the first
`num_samples` of each are used. `np.quantile` is modelled with its default method `linear`.
-/

set_option linter.unusedSectionVars false

namespace PDP.Analysis.MonteCarlo

open MeasureTheory ProbabilityTheory Filter Topology

/-! ### Model -/

/-- Exceptions of numpy: a negative scale or a quantile out of `[0, 1]`; no samples (`nan` or `IndexError`, depending on the version). -/
inductive Err
  | valueError
  | noSamples
  deriving DecidableEq

/-- `np.quantile(samples, q)` for one `q`, method `linear`: the virtual index `q * (n - 1)` of the sorted samples, with linear
interpolation between its neighbours. -/
noncomputable def sampleQuantile (xs : List ℝ) (q : ℝ) : ℝ :=
  let s := xs.mergeSort fun a b => decide (a ≤ b)
  let pos := q * ((xs.length : ℝ) - 1)
  let i := ⌊pos⌋₊
  s.getD i 0 + (pos - i) * (s.getD (min (i + 1) (xs.length - 1)) 0 - s.getD i 0)

open Classical in
/-- `np.quantile(samples, quantiles)`. -/
noncomputable def npQuantile (xs : List ℝ) (qs : List ℝ) : Except Err (List ℝ) :=
  if ∃ q ∈ qs, q < 0 ∨ 1 < q then .error .valueError
  else if xs = [] then .error .noSamples
  else .ok (qs.map (sampleQuantile xs))

open Classical in
/-- `compute_sum_laplace_gaussian_quantiles` (`analysis/probability_computations.py:20-35`). `laplace scale` are the numbers
`np.random.laplace(scale=scale, size=…)` returns, `normal loc scale` those of `np.random.normal(loc=loc, scale=scale, size=…)`; both
reject negative scales. -/
noncomputable def computeQuantiles (laplace : ℝ → ℕ → ℝ) (normal : ℝ → ℝ → ℕ → ℝ) (laplaceB gaussianSigma : ℝ)
    (quantiles : List ℝ) (numSamples : ℕ) : Except Err (List ℝ) :=
  if laplaceB < 0 ∨ gaussianSigma < 0 then .error .valueError
  else npQuantile ((List.range numSamples).map fun k => laplace laplaceB k + normal 0 gaussianSigma k) quantiles

/-! ### Specification -/

/-- The Laplace distribution with scale `b`. -/
noncomputable def laplaceLaw (b : ℝ) : Measure ℝ :=
  volume.withDensity fun t => ENNReal.ofReal (Real.exp (-|t| / b) / (2 * b))

/-- The probability that the sum of independent Laplace and Gaussian noise is at most `x`. -/
noncomputable def sumCdf (b σ x : ℝ) : ℝ :=
  (((laplaceLaw b).prod (gaussianReal 0 (σ ^ 2).toNNReal)) {p : ℝ × ℝ | p.1 + p.2 ≤ x}).toReal

/-- The numbers drawn by `np.random.laplace(scale=b, size=…)` and `np.random.normal(loc=0, scale=σ, size=…)`. -/
structure Drawn {Ω : Type} [MeasurableSpace Ω] (P : Measure Ω) (b σ : ℝ) (L G : ℕ → Ω → ℝ) : Prop where
  measL : ∀ k, Measurable (L k)
  measG : ∀ k, Measurable (G k)
  laplace : ∀ k, P.map (L k) = laplaceLaw b
  gauss : ∀ k, P.map (G k) = gaussianReal 0 (σ ^ 2).toNNReal
  pair : ∀ k, IndepFun (L k) (G k) P
  indep : Pairwise fun i j => IndepFun (fun ω => (L i ω, G i ω)) (fun ω => (L j ω, G j ω)) P

/-! ### Sorted lists -/

theorem sorted_spec (xs : List ℝ) :
    (xs.mergeSort fun a b => decide (a ≤ b)).Pairwise (· ≤ ·) ∧ (xs.mergeSort fun a b => decide (a ≤ b)).Perm xs := by
  refine ⟨?_, List.mergeSort_perm _ _⟩
  have := List.pairwise_mergeSort (le := fun a b : ℝ => decide (a ≤ b))
    (fun a b c hab hbc => by simp only [decide_eq_true_eq] at *; exact hab.trans hbc)
    (fun a b => by simp only [Bool.or_eq_true, decide_eq_true_eq]; exact le_total a b) xs
  simpa using this

theorem getD_eq (s : List ℝ) {i : ℕ} (h : i < s.length) : s.getD i 0 = s[i] := by simp [List.getD, h]

theorem getD_mono {s : List ℝ} (hs : s.Pairwise (· ≤ ·)) {i j : ℕ} (hij : i ≤ j) (hj : j < s.length) :
    s.getD i 0 ≤ s.getD j 0 := by
  rw [getD_eq s (by omega), getD_eq s hj]
  rcases hij.eq_or_lt with rfl | h
  · exact le_rfl
  · exact List.pairwise_iff_getElem.mp hs i j _ _ h

open Classical in
/-- The number of elements that are at most `a`. -/
noncomputable def countLe (a : ℝ) (s : List ℝ) : ℕ := s.countP fun x => decide (x ≤ a)

theorem lt_getD {s : List ℝ} (hs : s.Pairwise (· ≤ ·)) {i : ℕ} {a : ℝ} (hi : i < s.length) (h : countLe a s ≤ i) :
    a < s.getD i 0 := by
  by_contra hle
  push Not at hle
  have hall : ∀ x ∈ s.take (i + 1), x ≤ a := by
    intro x hx
    obtain ⟨j, hj, rfl⟩ := List.mem_iff_getElem.mp hx
    simp only [List.length_take] at hj
    have : s.getD j 0 ≤ s.getD i 0 := getD_mono hs (by omega) hi
    rw [getD_eq s (by omega)] at this
    rw [List.getElem_take]
    exact this.trans hle
  have h1 : countLe a (s.take (i + 1)) = i + 1 := by
    unfold countLe
    rw [List.countP_eq_length.mpr (by simpa using hall), List.length_take]
    omega
  have h2 : countLe a (s.take (i + 1)) ≤ countLe a s := (List.take_sublist _ _).countP_le
  omega

theorem getD_le {s : List ℝ} (hs : s.Pairwise (· ≤ ·)) {j : ℕ} {b : ℝ} (hj : j < s.length) (h : j + 1 ≤ countLe b s) :
    s.getD j 0 ≤ b := by
  by_contra hlt
  push Not at hlt
  have hnone : countLe b (s.drop j) = 0 := by
    unfold countLe
    rw [List.countP_eq_zero]
    intro x hx
    obtain ⟨k, hk, rfl⟩ := List.mem_iff_getElem.mp hx
    simp only [List.length_drop] at hk
    have : s.getD j 0 ≤ s.getD (j + k) 0 := getD_mono hs (by omega) (by omega)
    rw [getD_eq s (by omega : j + k < s.length)] at this
    rw [List.getElem_drop]
    simpa using hlt.trans_le this
  have hsplit : countLe b s = countLe b (s.take j) + countLe b (s.drop j) := by
    unfold countLe
    rw [← List.countP_append, List.take_append_drop]
  have hle : countLe b (s.take j) ≤ j := by
    unfold countLe
    exact List.countP_le_length.trans (by simp)
  omega

/-- The position of a quantile. -/
theorem pos_facts {n : ℕ} (hn : 1 ≤ n) {q : ℝ} (h0 : 0 ≤ q) (h1 : q ≤ 1) :
    0 ≤ q * ((n : ℝ) - 1) ∧ ⌊q * ((n : ℝ) - 1)⌋₊ ≤ n - 1 := by
  have hn' : (1 : ℝ) ≤ n := by exact_mod_cast hn
  have hp : 0 ≤ q * ((n : ℝ) - 1) := mul_nonneg h0 (by linarith)
  refine ⟨hp, ?_⟩
  have : q * ((n : ℝ) - 1) ≤ ((n - 1 : ℕ) : ℝ) := by
    rw [Nat.cast_sub hn]
    push_cast
    nlinarith
  exact Nat.floor_le_of_le this

theorem quantile_between (xs : List ℝ) (hne : xs ≠ []) {q : ℝ} (h0 : 0 ≤ q) (h1 : q ≤ 1) :
    let s := xs.mergeSort fun a b => decide (a ≤ b)
    let i := ⌊q * ((xs.length : ℝ) - 1)⌋₊
    s.getD i 0 ≤ sampleQuantile xs q ∧ sampleQuantile xs q ≤ s.getD (min (i + 1) (xs.length - 1)) 0 := by
  intro s i
  have hn : 1 ≤ xs.length := List.length_pos_iff.mpr hne
  obtain ⟨hp, hi⟩ := pos_facts hn h0 h1
  obtain ⟨hs, hperm⟩ := sorted_spec xs
  have hlen : s.length = xs.length := hperm.length_eq
  have hmono : s.getD i 0 ≤ s.getD (min (i + 1) (xs.length - 1)) 0 :=
    getD_mono hs (by simp only [le_min_iff]; exact ⟨by omega, hi⟩) (by rw [hlen]; omega)
  have hfrac0 : 0 ≤ q * ((xs.length : ℝ) - 1) - i := sub_nonneg.mpr (Nat.floor_le hp)
  have hfrac1 : q * ((xs.length : ℝ) - 1) - i ≤ 1 := by
    have := Nat.lt_floor_add_one (q * ((xs.length : ℝ) - 1))
    linarith
  have hq : sampleQuantile xs q = s.getD i 0 + (q * ((xs.length : ℝ) - 1) - i) *
      (s.getD (min (i + 1) (xs.length - 1)) 0 - s.getD i 0) := rfl
  rw [hq]
  constructor
  · nlinarith
  · nlinarith

/-! ### Properties for all samples -/

/-- **C96.** Whatever the generators return, with quantiles in `[0, 1]` and at least one sample the function returns one number
per quantile, none of them below all or above all samples. It fails for other quantiles and for negative scales. -/
theorem C96_result (laplace : ℝ → ℕ → ℝ) (normal : ℝ → ℝ → ℕ → ℝ) (b σ : ℝ) (qs : List ℝ) (n : ℕ) (hn : 1 ≤ n) :
    ((b < 0 ∨ σ < 0 ∨ ∃ q ∈ qs, q < 0 ∨ 1 < q) → computeQuantiles laplace normal b σ qs n = .error .valueError) ∧
    (0 ≤ b → 0 ≤ σ → (∀ q ∈ qs, 0 ≤ q ∧ q ≤ 1) →
      ∃ out, computeQuantiles laplace normal b σ qs n = .ok out ∧ out.length = qs.length ∧
        ∀ v ∈ out, (∃ k < n, laplace b k + normal 0 σ k ≤ v) ∧ ∃ k < n, v ≤ laplace b k + normal 0 σ k) := by
  constructor
  · intro h
    unfold computeQuantiles npQuantile
    split
    · rfl
    · rename_i hneg
      push Not at hneg
      rw [if_pos]
      rcases h with h | h | h
      · exact absurd h (by linarith [hneg.1])
      · exact absurd h (by linarith [hneg.2])
      · exact h
  · intro hb hσ h
    generalize hlap : laplace b = lap
    generalize hgauss : normal 0 σ = gauss
    have hno : ¬ ∃ q ∈ qs, q < 0 ∨ 1 < q := by
      rintro ⟨q, hq, h'⟩
      obtain ⟨a, b⟩ := h q hq
      rcases h' with h' | h' <;> linarith
    set xs := (List.range n).map fun k => lap k + gauss k with hxs
    have hlenx : xs.length = n := by simp [hxs]
    have hne : xs ≠ [] := by
      intro h'; rw [h'] at hlenx; simp at hlenx; omega
    refine ⟨qs.map (sampleQuantile xs), ?_, by simp, ?_⟩
    · unfold computeQuantiles npQuantile
      rw [if_neg (by push Not; exact ⟨hb, hσ⟩), if_neg hno, hlap, hgauss, if_neg hne]
    · intro v hv
      obtain ⟨q, hq, rfl⟩ := List.mem_map.mp hv
      obtain ⟨h0, h1⟩ := h q hq
      obtain ⟨hl, hu⟩ := quantile_between xs hne h0 h1
      obtain ⟨-, hi⟩ := pos_facts (n := xs.length) (by omega) h0 h1
      obtain ⟨hs, hperm⟩ := sorted_spec xs
      have hmem : ∀ j, j < n → ∃ k < n, (xs.mergeSort fun a b => decide (a ≤ b)).getD j 0 = lap k + gauss k := by
        intro j hj
        have hj' : j < (xs.mergeSort fun a b => decide (a ≤ b)).length := by rw [hperm.length_eq, hlenx]; exact hj
        have := hperm.subset (List.getElem_mem hj')
        obtain ⟨k, hk, hk2⟩ := List.mem_map.mp this
        exact ⟨k, List.mem_range.mp hk, by rw [getD_eq _ hj']; exact hk2.symm⟩
      constructor
      · obtain ⟨k, hk, hk2⟩ := hmem _ (by omega : ⌊q * ((xs.length : ℝ) - 1)⌋₊ < n)
        exact ⟨k, hk, hk2 ▸ hl⟩
      · obtain ⟨k, hk, hk2⟩ := hmem _ (by omega : min (⌊q * ((xs.length : ℝ) - 1)⌋₊ + 1) (xs.length - 1) < n)
        exact ⟨k, hk, hk2 ▸ hu⟩

/-- **C96.** The results are ordered as the quantiles are. -/
theorem C96_monotone (laplace : ℝ → ℕ → ℝ) (normal : ℝ → ℝ → ℕ → ℝ) (b σ : ℝ) (qs : List ℝ) (n : ℕ) (out : List ℝ)
    (h : computeQuantiles laplace normal b σ qs n = .ok out) (i j : ℕ) (hi : i < qs.length) (hj : j < qs.length)
    (hle : qs[i] ≤ qs[j]) :
    ∃ v w, out[i]? = some v ∧ out[j]? = some w ∧ v ≤ w := by
  unfold computeQuantiles npQuantile at h
  generalize laplace b = lap at h
  generalize normal 0 σ = gauss at h
  split at h
  · cases h
  split at h
  · cases h
  · rename_i hno
    split at h
    · cases h
    · rename_i hne
      simp only [Except.ok.injEq] at h
      subst h
      set xs := (List.range n).map fun k => lap k + gauss k
      refine ⟨sampleQuantile xs qs[i], sampleQuantile xs qs[j], by simp [hi], by simp [hj], ?_⟩
      have hrange : ∀ q ∈ qs, 0 ≤ q ∧ q ≤ 1 := by
        intro q hq
        push Not at hno
        exact hno q hq
      obtain ⟨a0, a1⟩ := hrange _ (List.getElem_mem hi)
      obtain ⟨b0, b1⟩ := hrange _ (List.getElem_mem hj)
      have hn : 1 ≤ xs.length := List.length_pos_iff.mpr hne
      have hn' : (1 : ℝ) ≤ xs.length := by exact_mod_cast hn
      obtain ⟨hp, hfi⟩ := pos_facts hn a0 a1
      obtain ⟨hp', hfj⟩ := pos_facts hn b0 b1
      obtain ⟨hs, hperm⟩ := sorted_spec xs
      have hpos : qs[i] * ((xs.length : ℝ) - 1) ≤ qs[j] * ((xs.length : ℝ) - 1) :=
        mul_le_mul_of_nonneg_right hle (by linarith)
      have hfl := Nat.floor_le_floor hpos
      have hlen := hperm.length_eq
      rcases hfl.eq_or_lt with heq | hlt
      · have hm : (xs.mergeSort fun a b => decide (a ≤ b)).getD ⌊qs[j] * ((xs.length : ℝ) - 1)⌋₊ 0 ≤
            (xs.mergeSort fun a b => decide (a ≤ b)).getD
              (min (⌊qs[j] * ((xs.length : ℝ) - 1)⌋₊ + 1) (xs.length - 1)) 0 :=
          getD_mono hs (by simp only [le_min_iff]; exact ⟨by omega, hfj⟩) (by rw [hlen]; omega)
        unfold sampleQuantile
        simp only [heq]
        have := mul_le_mul_of_nonneg_right (sub_le_sub_right hpos (⌊qs[j] * ((xs.length : ℝ) - 1)⌋₊ : ℝ))
          (sub_nonneg.mpr hm)
        linarith
      · refine (quantile_between xs hne a0 a1).2.trans (le_trans ?_ (quantile_between xs hne b0 b1).1)
        exact getD_mono hs ((min_le_left _ _).trans hlt) (by rw [hlen]; omega)

open Classical in
theorem countP_range (p : ℝ → Prop) (f : ℕ → ℝ) (n : ℕ) :
    ((List.range n).map f).countP (fun x => decide (p x)) = ((Finset.range n).filter fun k => p (f k)).card := by
  induction n with
  | zero => simp
  | succ n ih =>
    rw [List.range_succ, List.map_append, List.countP_append, ih, Finset.range_add_one, Finset.filter_insert]
    by_cases h : p (f n) <;> simp [h]

open Classical in
/-- **C96.** If the quantile hits an order statistic, `q * (n - 1) = k`, then that is the number returned: more than `k` samples are at
most it and at most `k` are less. With `q = 0` it is the least sample, with `q = 1` the largest. -/
theorem C96_order_statistic (laplace : ℝ → ℕ → ℝ) (normal : ℝ → ℝ → ℕ → ℝ) (b σ : ℝ) (qs : List ℝ) (n : ℕ) (out : List ℝ)
    (h : computeQuantiles laplace normal b σ qs n = .ok out) (i k : ℕ) (hi : i < qs.length) (hk : qs[i] * ((n : ℝ) - 1) = k) :
    ∃ v, out[i]? = some v ∧ (∃ m < n, v = laplace b m + normal 0 σ m) ∧
      k < ((Finset.range n).filter fun m => laplace b m + normal 0 σ m ≤ v).card ∧
      ((Finset.range n).filter fun m => laplace b m + normal 0 σ m < v).card ≤ k := by
  unfold computeQuantiles npQuantile at h
  generalize laplace b = lap at h ⊢
  generalize normal 0 σ = gauss at h ⊢
  split at h
  · cases h
  split at h
  · cases h
  rename_i hno
  split at h
  · cases h
  rename_i hne
  simp only [Except.ok.injEq] at h
  subst h
  set xs := (List.range n).map fun k => lap k + gauss k with hxs
  have hlenx : xs.length = n := by simp [hxs]
  have hn : 1 ≤ xs.length := List.length_pos_iff.mpr hne
  push Not at hno
  obtain ⟨q0, q1⟩ := hno _ (List.getElem_mem hi)
  obtain ⟨-, hfl⟩ := pos_facts hn q0 q1
  obtain ⟨hs, hperm⟩ := sorted_spec xs
  rw [hlenx, hk, Nat.floor_natCast] at hfl
  have hq : sampleQuantile xs qs[i] = (xs.mergeSort fun a b => decide (a ≤ b)).getD k 0 := by
    unfold sampleQuantile
    simp only [hlenx, hk, Nat.floor_natCast, sub_self, zero_mul, add_zero]
  set s := xs.mergeSort fun a b => decide (a ≤ b)
  have hks : k < s.length := by rw [hperm.length_eq]; omega
  refine ⟨s.getD k 0, by simp [hi, hq], ?_, ?_, ?_⟩
  · have := hperm.subset (List.getElem_mem hks)
    obtain ⟨m, hm, hm2⟩ := List.mem_map.mp this
    exact ⟨m, List.mem_range.mp hm, by rw [getD_eq _ hks]; exact hm2.symm⟩
  · by_contra hle
    push Not at hle
    have hc : countLe (s.getD k 0) s ≤ k := by
      refine le_trans (le_of_eq ?_) hle
      rw [← countP_range (fun x => x ≤ s.getD k 0) (fun m => lap m + gauss m) n]
      exact hperm.countP_eq _
    exact lt_irrefl _ (lt_getD hs hks hc)
  · rw [← countP_range (fun x => x < s.getD k 0) (fun m => lap m + gauss m) n]
    have h1 : xs.countP (fun x => decide (x < s.getD k 0)) = s.countP fun x => decide (x < s.getD k 0) :=
      (hperm.countP_eq _).symm
    have h2 : (s.drop k).countP (fun x => decide (x < s.getD k 0)) = 0 := by
      rw [List.countP_eq_zero]
      intro x hx
      obtain ⟨m, hm, rfl⟩ := List.mem_iff_getElem.mp hx
      simp only [List.length_drop] at hm
      have : s.getD k 0 ≤ s.getD (k + m) 0 := getD_mono hs (by omega) (by omega)
      rw [getD_eq s (by omega : k + m < s.length)] at this
      rw [List.getElem_drop]
      simpa using this
    have h3 : s.countP (fun x => decide (x < s.getD k 0))
        = (s.take k).countP (fun x => decide (x < s.getD k 0)) + (s.drop k).countP fun x => decide (x < s.getD k 0) := by
      rw [← List.countP_append, List.take_append_drop]
    have h4 : (s.take k).countP (fun x => decide (x < s.getD k 0)) ≤ k := List.countP_le_length.trans (by simp)
    rw [h1, h3, h2]
    omega

/-! ### Probabilities -/

section Probability

variable {Ω : Type} [MeasurableSpace Ω] {P : Measure Ω} [IsProbabilityMeasure P] {b σ : ℝ} {L G : ℕ → Ω → ℝ}

theorem Drawn.lap_prob (hd : Drawn P b σ L G) : IsProbabilityMeasure (laplaceLaw b) := by
  rw [← hd.laplace 0]
  exact Measure.isProbabilityMeasure_map (hd.measL 0).aemeasurable

theorem Drawn.prob_le (hd : Drawn P b σ L G) (k : ℕ) (x : ℝ) :
    (P {ω | L k ω + G k ω ≤ x}).toReal = sumCdf b σ x := by
  have hset : MeasurableSet {p : ℝ × ℝ | p.1 + p.2 ≤ x} := measurableSet_le (by fun_prop) measurable_const
  have hprod := (indepFun_iff_map_prod_eq_prod_map_map (hd.measL k).aemeasurable (hd.measG k).aemeasurable).mp (hd.pair k)
  rw [hd.laplace, hd.gauss] at hprod
  unfold sumCdf
  rw [← hprod, Measure.map_apply ((hd.measL k).prodMk (hd.measG k)) hset]
  rfl

open Classical in
/-- 1 if the `k`-th sum is at most `x`. -/
noncomputable def below (L G : ℕ → Ω → ℝ) (x : ℝ) (k : ℕ) (ω : Ω) : ℝ := if L k ω + G k ω ≤ x then 1 else 0

theorem below_meas (hd : Drawn P b σ L G) (x : ℝ) (k : ℕ) : Measurable (below L G x k) := by
  unfold below
  exact Measurable.ite (measurableSet_le ((hd.measL k).add (hd.measG k)) measurable_const) measurable_const measurable_const

theorem below_mem (x : ℝ) (k : ℕ) (ω : Ω) : below L G x k ω ∈ Set.Icc (0 : ℝ) 1 := by
  unfold below
  split <;> simp

theorem below_memLp (hd : Drawn P b σ L G) (x : ℝ) (k : ℕ) : MemLp (below L G x k) 2 P := by
  refine MemLp.of_bound (below_meas hd x k).aestronglyMeasurable 1 (Eventually.of_forall fun ω => ?_)
  obtain ⟨h1, h2⟩ := below_mem (L := L) (G := G) x k ω
  rw [Real.norm_eq_abs, abs_of_nonneg h1]
  exact h2

theorem below_mean (hd : Drawn P b σ L G) (x : ℝ) (k : ℕ) : ∫ ω, below L G x k ω ∂P = sumCdf b σ x := by
  have hset : MeasurableSet {ω | L k ω + G k ω ≤ x} := measurableSet_le ((hd.measL k).add (hd.measG k)) measurable_const
  have : below L G x k = Set.indicator {ω | L k ω + G k ω ≤ x} 1 := by
    funext ω
    by_cases h : L k ω + G k ω ≤ x <;> simp [below, h]
  rw [this, integral_indicator_one hset, ← hd.prob_le k x]
  rfl

theorem countLe_eq (x : ℝ) (n : ℕ) (ω : Ω) :
    (countLe x ((List.range n).map fun k => L k ω + G k ω) : ℝ) = ∑ k ∈ Finset.range n, below L G x k ω := by
  induction n with
  | zero => simp [countLe]
  | succ n ih =>
    rw [Finset.sum_range_succ, ← ih, List.range_succ, List.map_append]
    unfold countLe below
    rw [List.countP_append]
    by_cases h : L n ω + G n ω ≤ x <;> simp [h]

/-- Chebyshev's inequality for the number of samples that are at most `x`. -/
theorem count_deviation (hd : Drawn P b σ L G) (x : ℝ) (n : ℕ) {c : ℝ} (hc : 0 < c) :
    P {ω | c ≤ |(countLe x ((List.range n).map fun k => L k ω + G k ω) : ℝ) - n * sumCdf b σ x|}
      ≤ ENNReal.ofReal (n / 4 / c ^ 2) := by
  have hmem : MemLp (∑ k ∈ Finset.range n, below L G x k) 2 P := memLp_finset_sum' _ fun k _ => below_memLp hd x k
  have hmean : P[∑ k ∈ Finset.range n, below L G x k] = n * sumCdf b σ x := by
    simp only [Finset.sum_apply]
    rw [integral_finset_sum _ fun k _ => (below_memLp hd x k).integrable (by norm_num)]
    simp [below_mean hd]
  have hvar : variance (∑ k ∈ Finset.range n, below L G x k) P ≤ n / 4 := by
    rw [IndepFun.variance_sum (fun k _ => below_memLp hd x k)]
    · calc ∑ k ∈ Finset.range n, variance (below L G x k) P ≤ ∑ _k ∈ Finset.range n, (1 / 4 : ℝ) := by
            refine Finset.sum_le_sum fun k _ => ?_
            have := variance_le_sq_of_bounded (μ := P) (X := below L G x k) (a := 0) (b := 1)
              (Eventually.of_forall fun ω => below_mem x k ω) (below_meas hd x k).aemeasurable
            norm_num at this
            linarith
        _ = n / 4 := by simp; ring
    · intro i _ j _ hij
      have hf : Measurable fun p : ℝ × ℝ => (if p.1 + p.2 ≤ x then (1 : ℝ) else 0) :=
        Measurable.ite (measurableSet_le (by fun_prop) measurable_const) measurable_const measurable_const
      have := (hd.indep hij).comp hf hf
      convert this using 1 <;> (funext ω; simp [below])
  have hcheb := meas_ge_le_variance_div_sq hmem hc
  rw [hmean] at hcheb
  refine le_trans (le_of_eq ?_) (hcheb.trans (ENNReal.ofReal_le_ofReal (div_le_div_of_nonneg_right hvar (by positivity))))
  congr 1
  ext ω
  simp only [Set.mem_setOf_eq, Finset.sum_apply, countLe_eq]

/-- **C96.** How far the returned numbers can be off, for every number of samples `n`: let `F` be the distribution function of the sum of
the two noises. A returned `q`-quantile is below `x` or above `y`, where `F x < q < F y`, with at most the probability stated, which
decreases as `1 / n`. -/
theorem C96_error_probability (laplace : ℝ → ℕ → Ω → ℝ) (normal : ℝ → ℝ → ℕ → Ω → ℝ)
    (hd : Drawn P b σ (laplace b) (normal 0 σ)) (qs : List ℝ) (hqs : ∀ q ∈ qs, 0 ≤ q ∧ q ≤ 1) (n j : ℕ) (hj : j < qs.length)
    (x y : ℝ) (hx : 1 < n * (qs[j] - sumCdf b σ x)) (hy : 1 < n * (sumCdf b σ y - qs[j])) :
    P {ω | ∃ out v, computeQuantiles (fun s k => laplace s k ω) (fun m s k => normal m s k ω) b σ qs n = .ok out ∧
        out[j]? = some v ∧ (v < x ∨ y < v)}
      ≤ ENNReal.ofReal (n / 4 / (n * (qs[j] - sumCdf b σ x) - 1) ^ 2)
        + ENNReal.ofReal (n / 4 / (n * (sumCdf b σ y - qs[j]) - 1) ^ 2) := by
  obtain ⟨q0, q1⟩ := hqs _ (List.getElem_mem hj)
  refine le_trans (measure_mono ?_) ((measure_union_le _ _).trans (add_le_add
    (count_deviation hd x n (c := n * (qs[j] - sumCdf b σ x) - 1) (by linarith))
    (count_deviation hd y n (c := n * (sumCdf b σ y - qs[j]) - 1) (by linarith))))
  rintro ω ⟨out, v, hout, hv, hbad⟩
  unfold computeQuantiles npQuantile at hout
  split at hout
  · cases hout
  split at hout
  · cases hout
  split at hout
  · cases hout
  rename_i hne
  simp only [Except.ok.injEq] at hout
  subst hout
  set xs := (List.range n).map fun k => laplace b k ω + normal 0 σ k ω with hxs
  have hlenx : xs.length = n := by simp [hxs]
  have hv' : v = sampleQuantile xs qs[j] := by
    simpa [hj] using hv.symm
  subst hv'
  have hn : 1 ≤ xs.length := List.length_pos_iff.mpr hne
  obtain ⟨hl, hu⟩ := quantile_between xs hne q0 q1
  obtain ⟨hp, hi⟩ := pos_facts hn q0 q1
  obtain ⟨hs, hperm⟩ := sorted_spec xs
  set s := xs.mergeSort fun a b => decide (a ≤ b)
  have hlen : s.length = xs.length := hperm.length_eq
  have hcount : ∀ z, countLe z s = countLe z xs := fun z => hperm.countP_eq _
  have hfloor : (⌊qs[j] * ((xs.length : ℝ) - 1)⌋₊ : ℝ) ≤ qs[j] * ((xs.length : ℝ) - 1) := Nat.floor_le hp
  have hfloor' : qs[j] * ((xs.length : ℝ) - 1) < ⌊qs[j] * ((xs.length : ℝ) - 1)⌋₊ + 1 := Nat.lt_floor_add_one _
  rw [hlenx] at hfloor hfloor'
  rcases hbad with hbad | hbad
  · left
    have hlt : ⌊qs[j] * ((n : ℝ) - 1)⌋₊ < countLe x xs := by
      by_contra hge
      push Not at hge
      have := lt_getD hs (i := ⌊qs[j] * ((xs.length : ℝ) - 1)⌋₊) (a := x) (by rw [hlen]; omega)
        (by rw [hcount, hlenx]; exact hge)
      linarith
    have hlt' : (⌊qs[j] * ((n : ℝ) - 1)⌋₊ : ℝ) + 1 ≤ countLe x xs := by exact_mod_cast hlt
    simp only [Set.mem_setOf_eq]
    refine le_trans ?_ (le_abs_self _)
    nlinarith
  · right
    have hlt : countLe y xs ≤ ⌊qs[j] * ((n : ℝ) - 1)⌋₊ + 1 := by
      by_contra hge
      push Not at hge
      have := getD_le hs (j := min (⌊qs[j] * ((xs.length : ℝ) - 1)⌋₊ + 1) (xs.length - 1)) (b := y) (by rw [hlen]; omega)
        (by rw [hcount, hlenx]; omega)
      linarith
    have hlt' : (countLe y xs : ℝ) ≤ ⌊qs[j] * ((n : ℝ) - 1)⌋₊ + 1 := by exact_mod_cast hlt
    simp only [Set.mem_setOf_eq]
    refine le_trans ?_ (neg_le_abs _)
    nlinarith

/-! ### The distribution function -/

/-- The law of the sum. -/
noncomputable def sumLaw (b σ : ℝ) : Measure ℝ :=
  ((laplaceLaw b).prod (gaussianReal 0 (σ ^ 2).toNNReal)).map fun p => p.1 + p.2

theorem sumLaw_apply (b σ : ℝ) [SFinite (laplaceLaw b)] {A : Set ℝ} (hA : MeasurableSet A) :
    sumLaw b σ A = ∫⁻ u, gaussianReal 0 (σ ^ 2).toNNReal {w | u + w ∈ A} ∂(laplaceLaw b) := by
  unfold sumLaw
  rw [Measure.map_apply (by fun_prop) hA, Measure.prod_apply ((by fun_prop : Measurable fun p : ℝ × ℝ => p.1 + p.2) hA)]
  rfl

theorem sumCdf_eq (b σ x : ℝ) [IsProbabilityMeasure (laplaceLaw b)] : sumCdf b σ x = cdf (sumLaw b σ) x := by
  have : IsProbabilityMeasure (sumLaw b σ) := Measure.isProbabilityMeasure_map (by fun_prop)
  rw [cdf_eq_real]
  unfold sumCdf sumLaw Measure.real
  rw [Measure.map_apply (by fun_prop) measurableSet_Iic]
  rfl

theorem var_ne {σ : ℝ} (hσ : 0 < σ) : (σ ^ 2).toNNReal ≠ 0 := by
  have : 0 < (σ ^ 2).toNNReal := Real.toNNReal_pos.mpr (by positivity)
  exact this.ne'

theorem sumCdf_strictMono (b : ℝ) {σ : ℝ} (hσ : 0 < σ) [IsProbabilityMeasure (laplaceLaw b)] : StrictMono (sumCdf b σ) := by
  have hp : IsProbabilityMeasure (sumLaw b σ) := Measure.isProbabilityMeasure_map (by fun_prop)
  intro x y hxy
  rw [sumCdf_eq, sumCdf_eq]
  have hpos : sumLaw b σ (Set.Ioc x y) ≠ 0 := by
    rw [sumLaw_apply b σ measurableSet_Ioc]
    intro h0
    have hm : Measurable fun u => gaussianReal 0 (σ ^ 2).toNNReal {w | u + w ∈ Set.Ioc x y} :=
      measurable_measure_prodMk_left
        ((by fun_prop : Measurable fun p : ℝ × ℝ => p.1 + p.2) (measurableSet_Ioc (a := x) (b := y)))
    have hae := (lintegral_eq_zero_iff hm).mp h0
    obtain ⟨u, hu⟩ := hae.exists
    have hvol : volume {w : ℝ | u + w ∈ Set.Ioc x y} = 0 := gaussianReal_absolutelyContinuous' 0 (var_ne hσ) hu
    have hset : {w : ℝ | u + w ∈ Set.Ioc x y} = Set.Ioc (x - u) (y - u) := by
      ext w
      simp only [Set.mem_setOf_eq, Set.mem_Ioc]
      constructor <;> rintro ⟨h1, h2⟩ <;> constructor <;> linarith
    rw [hset, Real.volume_Ioc, ENNReal.ofReal_eq_zero] at hvol
    linarith
  have hIoc := (cdf (sumLaw b σ)).measure_Ioc x y
  rw [measure_cdf] at hIoc
  rw [hIoc] at hpos
  have := ENNReal.ofReal_pos.mp (pos_iff_ne_zero.mpr hpos)
  linarith

theorem sumCdf_continuous (b : ℝ) {σ : ℝ} (hσ : 0 < σ) [IsProbabilityMeasure (laplaceLaw b)] : Continuous (sumCdf b σ) := by
  have hp : IsProbabilityMeasure (sumLaw b σ) := Measure.isProbabilityMeasure_map (by fun_prop)
  have heq : sumCdf b σ = cdf (sumLaw b σ) := by
    funext x
    exact sumCdf_eq b σ x
  rw [heq, continuous_iff_continuousAt]
  intro x
  rw [(monotone_cdf _).continuousAt_iff_leftLim_eq_rightLim, StieltjesFunction.rightLim_eq]
  have hsing := (cdf (sumLaw b σ)).measure_singleton x
  have hzero : sumLaw b σ {x} = 0 := by
    rw [sumLaw_apply b σ (measurableSet_singleton x)]
    have : ∀ u, gaussianReal 0 (σ ^ 2).toNNReal {w | u + w ∈ ({x} : Set ℝ)} = 0 := by
      intro u
      have hset : {w : ℝ | u + w ∈ ({x} : Set ℝ)} = {x - u} := by
        ext w
        simp only [Set.mem_setOf_eq, Set.mem_singleton_iff]
        constructor <;> intro h <;> linarith
      rw [hset]
      exact gaussianReal_absolutelyContinuous 0 (var_ne hσ) (by simp)
    rw [lintegral_congr this, lintegral_zero]
  rw [measure_cdf, hzero] at hsing
  have h1 := ENNReal.ofReal_eq_zero.mp hsing.symm
  have h2 := (monotone_cdf (sumLaw b σ)).leftLim_le (le_refl x)
  linarith

theorem error_vanishes {c : ℝ} (hc : 0 < c) :
    Tendsto (fun n : ℕ => ENNReal.ofReal ((n : ℝ) / 4 / (n * c - 1) ^ 2)) atTop (𝓝 0) := by
  rw [← ENNReal.ofReal_zero]
  refine ENNReal.tendsto_ofReal ?_
  have hlin : Tendsto (fun n : ℕ => (n : ℝ)) atTop atTop := tendsto_natCast_atTop_atTop
  have hbound : Tendsto (fun n : ℕ => 1 / c ^ 2 * (n : ℝ)⁻¹) atTop (𝓝 (1 / c ^ 2 * 0)) :=
    (tendsto_inv_atTop_zero.comp hlin).const_mul _
  rw [mul_zero] at hbound
  refine squeeze_zero' (Eventually.of_forall fun n => by positivity) ?_ hbound
  filter_upwards [hlin.eventually_ge_atTop (2 / c), hlin.eventually_ge_atTop 1] with n hn hn1
  have hnc : 2 ≤ n * c := by rwa [div_le_iff₀ hc] at hn
  have hn0 : (0 : ℝ) < n := by linarith
  have hhalf : (n * c / 2) ^ 2 ≤ (n * c - 1) ^ 2 := by
    apply pow_le_pow_left₀ <;> linarith
  calc (n : ℝ) / 4 / (n * c - 1) ^ 2 ≤ (n : ℝ) / 4 / (n * c / 2) ^ 2 :=
        div_le_div_of_nonneg_left (by positivity) (by positivity) hhalf
    _ = 1 / c ^ 2 * (n : ℝ)⁻¹ := by field_simp; try ring

/-- **C96.** With positive scales every quantile `0 < q < 1` of the sum exists and is unique, and the number returned for it is within
any distance `ε` of it with probability as near to 1 as wanted, for enough samples. -/
theorem C96_converges (laplace : ℝ → ℕ → Ω → ℝ) (normal : ℝ → ℝ → ℕ → Ω → ℝ)
    (hd : Drawn P b σ (laplace b) (normal 0 σ)) (hb : 0 < b) (hσ : 0 < σ) (qs : List ℝ) (hqs : ∀ q ∈ qs, 0 < q ∧ q < 1)
    (j : ℕ) (hj : j < qs.length) :
    ∃! t, sumCdf b σ t = qs[j] ∧ ∀ ε > 0,
      Tendsto (fun n => P {ω | ∃ out v,
        computeQuantiles (fun s k => laplace s k ω) (fun m s k => normal m s k ω) b σ qs n = .ok out ∧
          out[j]? = some v ∧ |v - t| ≤ ε}) atTop (𝓝 1) := by
  have hlap : IsProbabilityMeasure (laplaceLaw b) := hd.lap_prob
  have hmono := sumCdf_strictMono b hσ
  obtain ⟨q0, q1⟩ := hqs _ (List.getElem_mem hj)
  have hp : IsProbabilityMeasure (sumLaw b σ) := Measure.isProbabilityMeasure_map (by fun_prop)
  have hex : qs[j] ∈ Set.range (sumCdf b σ) := by
    refine mem_range_of_exists_le_of_exists_ge (sumCdf_continuous b hσ) ?_ ?_
    · obtain ⟨a, ha⟩ := ((tendsto_cdf_atBot (sumLaw b σ)).eventually_lt_const q0).exists
      exact ⟨a, by rw [sumCdf_eq]; exact ha.le⟩
    · obtain ⟨a, ha⟩ := ((tendsto_cdf_atTop (sumLaw b σ)).eventually_const_lt q1).exists
      exact ⟨a, by rw [sumCdf_eq]; exact ha.le⟩
  obtain ⟨t, ht⟩ := hex
  refine ⟨t, ⟨ht, fun ε hε => ?_⟩, fun t' ht' => hmono.injective (ht'.1.trans ht.symm)⟩
  have hx : 0 < qs[j] - sumCdf b σ (t - ε) := by
    have := hmono (show t - ε < t by linarith)
    linarith
  have hy : 0 < sumCdf b σ (t + ε) - qs[j] := by
    have := hmono (show t < t + ε by linarith)
    linarith
  have hlin : Tendsto (fun n : ℕ => (n : ℝ)) atTop atTop := tendsto_natCast_atTop_atTop
  have hlow : Tendsto (fun n : ℕ => 1 - (ENNReal.ofReal ((n : ℝ) / 4 / (n * (qs[j] - sumCdf b σ (t - ε)) - 1) ^ 2)
      + ENNReal.ofReal ((n : ℝ) / 4 / (n * (sumCdf b σ (t + ε) - qs[j]) - 1) ^ 2))) atTop (𝓝 1) := by
    have h := ENNReal.Tendsto.sub (tendsto_const_nhds (x := (1 : ENNReal))) ((error_vanishes hx).add (error_vanishes hy))
      (Or.inl ENNReal.one_ne_top)
    simpa using h
  refine tendsto_of_tendsto_of_tendsto_of_le_of_le' hlow tendsto_const_nhds ?_ (Eventually.of_forall fun n => prob_le_one)
  filter_upwards [(hlin.atTop_mul_const hx).eventually_gt_atTop 1, (hlin.atTop_mul_const hy).eventually_gt_atTop 1,
    eventually_ge_atTop 1] with n h1 h2 hn
  have hq' : ∀ q ∈ qs, 0 ≤ q ∧ q ≤ 1 := fun q hq => ⟨(hqs q hq).1.le, (hqs q hq).2.le⟩
  have herr := C96_error_probability laplace normal hd qs hq' n j hj (t - ε) (t + ε) h1 h2
  refine le_trans (tsub_le_tsub_left herr 1) ?_
  rw [tsub_le_iff_right, ← measure_univ (μ := P)]
  refine le_trans (measure_mono ?_) (measure_union_le _ _)
  intro ω _
  obtain ⟨out, hout, hlen, -⟩ := (C96_result (fun s k => laplace s k ω) (fun m s k => normal m s k ω) b σ qs n hn).2 hb.le hσ.le hq'
  have hj' : j < out.length := by omega
  by_cases hv : |out[j] - t| ≤ ε
  · exact Or.inl ⟨out, out[j], hout, by simp [hj'], hv⟩
  · refine Or.inr ⟨out, out[j], hout, by simp [hj'], ?_⟩
    rw [abs_le, not_and_or] at hv
    rcases hv with hv | hv
    · left; linarith
    · right; linarith

/-- Numbers of samples at most `x` if a quantile comes out below or above `x`. -/
theorem count_of_quantile (lap gauss : ℕ → ℝ) (n : ℕ) (hn : 1 ≤ n) {q : ℝ} (q0 : 0 ≤ q) (q1 : q ≤ 1) (x : ℝ) :
    (sampleQuantile ((List.range n).map fun k => lap k + gauss k) q < x →
      q * ((n : ℝ) - 1) < countLe x ((List.range n).map fun k => lap k + gauss k)) ∧
    (x < sampleQuantile ((List.range n).map fun k => lap k + gauss k) q →
      (countLe x ((List.range n).map fun k => lap k + gauss k) : ℝ) ≤ q * ((n : ℝ) - 1) + 1) := by
  set xs := (List.range n).map fun k => lap k + gauss k with hxs
  have hlenx : xs.length = n := by simp [hxs]
  have hne : xs ≠ [] := by intro h; rw [h] at hlenx; simp at hlenx; omega
  obtain ⟨hl, hu⟩ := quantile_between xs hne q0 q1
  obtain ⟨hp, hi⟩ := pos_facts (n := xs.length) (by omega) q0 q1
  obtain ⟨hs, hperm⟩ := sorted_spec xs
  set s := xs.mergeSort fun a b => decide (a ≤ b)
  have hlen : s.length = xs.length := hperm.length_eq
  have hcount : ∀ z, countLe z s = countLe z xs := fun z => hperm.countP_eq _
  have hfloor : (⌊q * ((xs.length : ℝ) - 1)⌋₊ : ℝ) ≤ q * ((xs.length : ℝ) - 1) := Nat.floor_le hp
  have hfloor' : q * ((xs.length : ℝ) - 1) < ⌊q * ((xs.length : ℝ) - 1)⌋₊ + 1 := Nat.lt_floor_add_one _
  rw [hlenx] at hfloor hfloor'
  constructor
  · intro hbad
    have hlt : ⌊q * ((n : ℝ) - 1)⌋₊ < countLe x xs := by
      by_contra hge
      push Not at hge
      have := lt_getD hs (i := ⌊q * ((xs.length : ℝ) - 1)⌋₊) (a := x) (by rw [hlen]; omega) (by rw [hcount, hlenx]; exact hge)
      linarith
    have hlt' : (⌊q * ((n : ℝ) - 1)⌋₊ : ℝ) + 1 ≤ countLe x xs := by exact_mod_cast hlt
    linarith
  · intro hbad
    have hlt : countLe x xs ≤ ⌊q * ((n : ℝ) - 1)⌋₊ + 1 := by
      by_contra hge
      push Not at hge
      have := getD_le hs (j := min (⌊q * ((xs.length : ℝ) - 1)⌋₊ + 1) (xs.length - 1)) (b := x) (by rw [hlen]; omega)
        (by rw [hcount, hlenx]; omega)
      linarith
    have hlt' : (countLe x xs : ℝ) ≤ ⌊q * ((n : ℝ) - 1)⌋₊ + 1 := by exact_mod_cast hlt
    linarith

/-- The strong law for the numbers of samples at most `x`. -/
theorem count_strong_law (hd : Drawn P b σ L G) (x : ℝ) :
    ∀ᵐ ω ∂P, Tendsto (fun n : ℕ => (countLe x ((List.range n).map fun k => L k ω + G k ω) : ℝ) / n) atTop (𝓝 (sumCdf b σ x)) := by
  have hlap : IsProbabilityMeasure (laplaceLaw b) := hd.lap_prob
  have hf : Measurable fun p : ℝ × ℝ => (if p.1 + p.2 ≤ x then (1 : ℝ) else 0) :=
    Measurable.ite (measurableSet_le (by fun_prop) measurable_const) measurable_const measurable_const
  have hbelow : ∀ k, below L G x k = (fun p : ℝ × ℝ => (if p.1 + p.2 ≤ x then (1 : ℝ) else 0)) ∘ fun ω => (L k ω, G k ω) := by
    intro k
    funext ω
    simp [below]
  have hindep : Pairwise fun i j => IndepFun (below L G x i) (below L G x j) P := by
    intro i j hij
    rw [hbelow i, hbelow j]
    exact (hd.indep hij).comp hf hf
  have hident : ∀ i, IdentDistrib (below L G x i) (below L G x 0) P P := by
    intro i
    have hpair : IdentDistrib (fun ω => (L i ω, G i ω)) (fun ω => (L 0 ω, G 0 ω)) P P := by
      refine ⟨((hd.measL i).prodMk (hd.measG i)).aemeasurable, ((hd.measL 0).prodMk (hd.measG 0)).aemeasurable, ?_⟩
      rw [(indepFun_iff_map_prod_eq_prod_map_map (hd.measL i).aemeasurable (hd.measG i).aemeasurable).mp (hd.pair i),
        (indepFun_iff_map_prod_eq_prod_map_map (hd.measL 0).aemeasurable (hd.measG 0).aemeasurable).mp (hd.pair 0),
        hd.laplace, hd.laplace, hd.gauss, hd.gauss]
    rw [hbelow i, hbelow 0]
    exact hpair.comp hf
  have hlaw := strong_law_ae_real (below L G x) ((below_memLp hd x 0).integrable (by norm_num)) hindep hident
  rw [below_mean hd x 0] at hlaw
  filter_upwards [hlaw] with ω hω
  simpa only [countLe_eq] using hω

/-- **C96.** The numbers returned converge to the quantile almost surely, as more and more samples of the same run are used. -/
theorem C96_converges_almost_surely (laplace : ℝ → ℕ → Ω → ℝ) (normal : ℝ → ℝ → ℕ → Ω → ℝ)
    (hd : Drawn P b σ (laplace b) (normal 0 σ)) (hb : 0 < b) (hσ : 0 < σ) (qs : List ℝ) (hqs : ∀ q ∈ qs, 0 < q ∧ q < 1)
    (j : ℕ) (hj : j < qs.length) (t : ℝ) (ht : sumCdf b σ t = qs[j]) :
    ∀ᵐ ω ∂P, ∀ ε > 0, ∃ N, ∀ n ≥ N, ∃ out v,
      computeQuantiles (fun s k => laplace s k ω) (fun m s k => normal m s k ω) b σ qs n = .ok out ∧
        out[j]? = some v ∧ |v - t| ≤ ε := by
  have hlap : IsProbabilityMeasure (laplaceLaw b) := hd.lap_prob
  have hmono := sumCdf_strictMono b hσ
  obtain ⟨q0, q1⟩ := hqs _ (List.getElem_mem hj)
  have h1 : ∀ᵐ ω ∂P, ∀ m : ℕ, Tendsto (fun n : ℕ =>
      (countLe (t - 1 / ((m : ℝ) + 1)) ((List.range n).map fun k => laplace b k ω + normal 0 σ k ω) : ℝ) / n) atTop
      (𝓝 (sumCdf b σ (t - 1 / ((m : ℝ) + 1)))) := ae_all_iff.mpr fun m => count_strong_law hd _
  have h2 : ∀ᵐ ω ∂P, ∀ m : ℕ, Tendsto (fun n : ℕ =>
      (countLe (t + 1 / ((m : ℝ) + 1)) ((List.range n).map fun k => laplace b k ω + normal 0 σ k ω) : ℝ) / n) atTop
      (𝓝 (sumCdf b σ (t + 1 / ((m : ℝ) + 1)))) := ae_all_iff.mpr fun m => count_strong_law hd _
  filter_upwards [h1, h2] with ω hω1 hω2 ε hε
  obtain ⟨m, hm⟩ := exists_nat_one_div_lt hε
  have hpos : (0 : ℝ) < 1 / ((m : ℝ) + 1) := by positivity
  have hx : sumCdf b σ (t - 1 / ((m : ℝ) + 1)) < qs[j] := ht ▸ hmono (by linarith)
  have hy : qs[j] < sumCdf b σ (t + 1 / ((m : ℝ) + 1)) := ht ▸ hmono (by linarith)
  generalize hx0 : t - 1 / ((m : ℝ) + 1) = x at *
  generalize hy0 : t + 1 / ((m : ℝ) + 1) = y at *
  have hlx := hω1 m
  have hly := hω2 m
  rw [hx0] at hlx
  rw [hy0] at hly
  obtain ⟨N1, hN1⟩ := eventually_atTop.mp (hlx.eventually_lt_const (show _ < (sumCdf b σ x + qs[j]) / 2 by linarith))
  obtain ⟨N2, hN2⟩ := eventually_atTop.mp (hly.eventually_const_lt (show (sumCdf b σ y + qs[j]) / 2 < _ by linarith))
  obtain ⟨N3, hN3⟩ := exists_nat_gt (2 / (qs[j] - sumCdf b σ x))
  obtain ⟨N4, hN4⟩ := exists_nat_gt (2 / (sumCdf b σ y - qs[j]))
  refine ⟨max (max N1 N2) (max (max N3 N4) 1), fun n hn => ?_⟩
  simp only [ge_iff_le, max_le_iff] at hn
  obtain ⟨⟨hn1, hn2⟩, ⟨hn3, hn4⟩, hn5⟩ := hn
  have hq' : ∀ q ∈ qs, 0 ≤ q ∧ q ≤ 1 := fun q hq => ⟨(hqs q hq).1.le, (hqs q hq).2.le⟩
  have hnpos : (0 : ℝ) < n := by exact_mod_cast hn5
  have hne : ((List.range n).map fun k => laplace b k ω + normal 0 σ k ω) ≠ [] := by
    intro h
    have := congrArg List.length h
    simp at this
    omega
  have hout : computeQuantiles (fun s k => laplace s k ω) (fun m s k => normal m s k ω) b σ qs n
      = .ok (qs.map (sampleQuantile ((List.range n).map fun k => laplace b k ω + normal 0 σ k ω))) := by
    unfold computeQuantiles npQuantile
    rw [if_neg (by push Not; exact ⟨hb.le, hσ.le⟩), if_neg (by push Not; exact hq'), if_neg hne]
  refine ⟨_, sampleQuantile ((List.range n).map fun k => laplace b k ω + normal 0 σ k ω) qs[j], hout, by simp [hj], ?_⟩
  have hcx := (count_of_quantile (fun k => laplace b k ω) (fun k => normal 0 σ k ω) n hn5 q0.le q1.le x).1
  have hcy := (count_of_quantile (fun k => laplace b k ω) (fun k => normal 0 σ k ω) n hn5 q0.le q1.le y).2
  have e1 := hN1 n hn1
  have e2 := hN2 n hn2
  rw [div_lt_iff₀ hnpos] at e1
  rw [lt_div_iff₀ hnpos] at e2
  have e3 : 2 < n * (qs[j] - sumCdf b σ x) := by
    have : (N3 : ℝ) ≤ n := by exact_mod_cast hn3
    rw [div_lt_iff₀ (by linarith)] at hN3
    exact hN3.trans_le (mul_le_mul_of_nonneg_right this (by linarith))
  have e4 : 2 < n * (sumCdf b σ y - qs[j]) := by
    have : (N4 : ℝ) ≤ n := by exact_mod_cast hn4
    rw [div_lt_iff₀ (by linarith)] at hN4
    exact hN4.trans_le (mul_le_mul_of_nonneg_right this (by linarith))
  have b1 : x ≤ sampleQuantile ((List.range n).map fun k => laplace b k ω + normal 0 σ k ω) qs[j] := by
    by_contra hlt
    push Not at hlt
    have := hcx hlt
    nlinarith
  have b2 : sampleQuantile ((List.range n).map fun k => laplace b k ω + normal 0 σ k ω) qs[j] ≤ y := by
    by_contra hlt
    push Not at hlt
    have := hcy hlt
    nlinarith
  rw [abs_le]
  constructor <;> linarith

end Probability

/-! ### Non-vacuity -/

/-- Such generators exist for all scales: the coordinates of a sequence of independent pairs. -/
theorem drawn_exists {b : ℝ} (hb : 0 < b) (σ : ℝ) :
    ∃ (P : Measure (ℕ → ℝ × ℝ)) (_ : IsProbabilityMeasure P), Drawn P b σ (fun k ω => (ω k).1) (fun k ω => (ω k).2) := by
  have hp : IsProbabilityMeasure (laplaceLaw b) := by
    have := PDP.EndToEnd.noisy_laplace_prob (b := b) hb 1 0
    simp only [PDP.EndToEnd.noisy, zero_add, Measure.map_id'] at this
    exact this
  let ν := (laplaceLaw b).prod (gaussianReal 0 (σ ^ 2).toNNReal)
  have hpair : ∀ k : ℕ, (Measure.infinitePi fun _ : ℕ => ν).map (fun ω => ω k) = ν := fun k =>
    Measure.infinitePi_map_eval (fun _ : ℕ => ν) k
  have h1 : ∀ k : ℕ, (Measure.infinitePi fun _ : ℕ => ν).map (fun ω => (ω k).1) = laplaceLaw b := by
    intro k
    have := congrArg (Measure.map Prod.fst) (hpair k)
    rw [Measure.map_map measurable_fst (measurable_pi_apply k)] at this
    refine Eq.trans this ?_
    rw [Measure.map_fst_prod, measure_univ, one_smul]
  have h2 : ∀ k : ℕ, (Measure.infinitePi fun _ : ℕ => ν).map (fun ω => (ω k).2) = gaussianReal 0 (σ ^ 2).toNNReal := by
    intro k
    have := congrArg (Measure.map Prod.snd) (hpair k)
    rw [Measure.map_map measurable_snd (measurable_pi_apply k)] at this
    refine Eq.trans this ?_
    rw [Measure.map_snd_prod, measure_univ, one_smul]
  refine ⟨Measure.infinitePi fun _ : ℕ => ν, inferInstance, by fun_prop, by fun_prop, h1, h2, fun k => ?_, ?_⟩
  · rw [indepFun_iff_map_prod_eq_prod_map_map (by exact (measurable_fst.comp (measurable_pi_apply k)).aemeasurable)
      (by exact (measurable_snd.comp (measurable_pi_apply k)).aemeasurable), h1, h2]
    exact hpair k
  · intro i j hij
    exact (iIndepFun_infinitePi (P := fun _ : ℕ => ν) (X := fun _ p => p) (fun _ => measurable_id)).indepFun hij

/-- Laplace noise of scale 1 plus standard normal noise: all returned quantiles converge. -/
example (qs : List ℝ) (hqs : ∀ q ∈ qs, 0 < q ∧ q < 1) (j : ℕ) (hj : j < qs.length) :
    ∃ (P : Measure (ℕ → ℝ × ℝ)) (_ : IsProbabilityMeasure P), ∃! t, sumCdf 1 1 t = qs[j] ∧ ∀ ε > 0,
      Tendsto (fun n => P {ω | ∃ out v,
        computeQuantiles (fun _ k => (ω k).1) (fun _ _ k => (ω k).2) 1 1 qs n = .ok out ∧
          out[j]? = some v ∧ |v - t| ≤ ε}) atTop (𝓝 1) := by
  obtain ⟨P, hP, hd⟩ := drawn_exists (b := 1) one_pos 1
  have h := C96_converges (P := P) (b := 1) (σ := 1) (fun _ k ω => (ω k).1) (fun _ _ k ω => (ω k).2) hd one_pos one_pos qs hqs j hj
  exact ⟨P, hP, h⟩

/-- The same, almost surely. -/
example (qs : List ℝ) (hqs : ∀ q ∈ qs, 0 < q ∧ q < 1) (j : ℕ) (hj : j < qs.length) :
    ∃ (P : Measure (ℕ → ℝ × ℝ)) (_ : IsProbabilityMeasure P) (t : ℝ), sumCdf 1 1 t = qs[j] ∧ ∀ᵐ ω ∂P, ∀ ε > 0, ∃ N, ∀ n ≥ N, ∃ out v,
      computeQuantiles (fun _ k => (ω k).1) (fun _ _ k => (ω k).2) 1 1 qs n = .ok out ∧ out[j]? = some v ∧ |v - t| ≤ ε := by
  obtain ⟨P, hP, hd⟩ := drawn_exists (b := 1) one_pos 1
  obtain ⟨t, ⟨ht, -⟩, -⟩ := C96_converges (P := P) (b := 1) (σ := 1) (fun _ k ω => (ω k).1) (fun _ _ k ω => (ω k).2) hd one_pos one_pos
    qs hqs j hj
  have h := C96_converges_almost_surely (P := P) (b := 1) (σ := 1) (fun _ k ω => (ω k).1) (fun _ _ k ω => (ω k).2) hd one_pos one_pos
    qs hqs j hj t ht
  exact ⟨P, hP, t, ht, h⟩

/-- The quartiles meet the hypothesis. -/
example : ∀ q ∈ [(1 / 4 : ℝ), 1 / 2, 3 / 4], 0 < q ∧ q < 1 := by
  intro q hq
  simp only [List.mem_cons, List.not_mem_nil, or_false] at hq
  rcases hq with rfl | rfl | rfl <;> norm_num

/-- Four samples `0, 10, 20, 30`: the median lies between the samples and above the lower quartile. -/
example : ∃ out, computeQuantiles (fun _ k => 10 * k) (fun _ _ _ => 0) 1 1 [1 / 4, 1 / 2] 4 = .ok out ∧ out.length = 2 ∧
    ∃ v w, out[0]? = some v ∧ out[1]? = some w ∧ v ≤ w := by
  obtain ⟨out, h, hlen, -⟩ := (C96_result (fun _ k => 10 * k) (fun _ _ _ => 0) 1 1 [1 / 4, 1 / 2] 4 (by norm_num)).2 (by norm_num)
    (by norm_num)
    (by intro q hq; simp only [List.mem_cons, List.not_mem_nil, or_false] at hq; rcases hq with rfl | rfl <;> norm_num)
  exact ⟨out, h, hlen, C96_monotone _ _ 1 1 _ 4 out h 0 1 (by simp) (by simp) (by norm_num)⟩

/-- Of the five samples `0, 10, 20, 30, 40` the median is the one with position 2. -/
example (out : List ℝ) (h : computeQuantiles (fun _ k => 10 * k) (fun _ _ _ => 0) 1 1 [1 / 2] 5 = .ok out) :=
  C96_order_statistic _ _ 1 1 _ 5 out h 0 2 (by simp) (by norm_num)

/-- A quantile above 1 is rejected. -/
example : computeQuantiles (fun _ k => 10 * k) (fun _ _ _ => 0) 1 1 [1 / 2, 2] 4 = .error .valueError :=
  (C96_result _ _ 1 1 _ 4 (by norm_num)).1 (Or.inr (Or.inr ⟨2, by simp, by norm_num⟩))

end PDP.Analysis.MonteCarlo
