import Verif.Histogram.Ratio
import Mathlib.Analysis.Real.Sqrt

/-!
# Property C53: error estimation from histograms

Model of `dataset_histograms/histogram_error_estimator.py`.
-/

set_option linter.unusedSectionVars false
set_option linter.unusedVariables false

namespace PDP.Histogram

open PDP.Engine (Err Metric NoiseKind)

/-- Lexicographic `<` on pairs, as Python compares tuples. -/
def tupleLt (a b : ℚ × ℚ) : Bool := decide (a.1 < b.1 ∨ (a.1 = b.1 ∧ a.2 < b.2))

/-- `bisect.bisect_left` on a sorted list: the number of entries less than `x`.  (The binary search of the
standard library is replaced by what it computes on sorted lists.) -/
def bisectLeft (l : List (ℚ × ℚ)) (x : ℚ × ℚ) : ℕ := (l.takeWhile fun e => tupleLt e x).length

/-- `histogram_error_estimator.py:114-128` `_get_ratio_dropped`; indexing outside of the list is an
`IndexError`, modelled as `keyError`. -/
def getRatio (table : List (ℚ × ℚ)) (bound : ℚ) : Except Err ℚ :=
  if bound ≤ 0 then .ok 1
  else
    match table.getLast? with
    | none => .error .keyError
    | some last =>
      if last.1 < bound then .ok 0
      else
        let index := bisectLeft table (bound, 0)
        match table[index]?, table[index - 1]? with
        | some (x2, y2), some (x1, y1) =>
          if x2 = bound then .ok y2
          else .ok ((y1 * (x2 - bound) + y2 * (bound - x1)) / (x2 - x1))
        | _, _ => .error .keyError

/-- `histogram_error_estimator.py:130-138` `_get_stddev`. -/
noncomputable def estimatorStd (metric : Metric) (noise : NoiseKind) (base l0 linf : ℝ) : ℝ :=
  let linf := if metric = .privacyIdCount then 1 else linf
  if noise = .laplace then base * l0 * linf else base * Real.sqrt l0 * linf

/-- `histogram_error_estimator.py:187-196` `_estimate_rmse_impl`. -/
noncomputable def rmseImpl (ratio std : ℝ) (bins : List Bin) : ℝ :=
  (bins.map fun b => (b.count : ℝ) * Real.sqrt ((ratio * ((b.sum : ℝ) / b.count)) ^ 2 + std ^ 2)).sum / totalCount bins

/-- `histogram_error_estimator.py:67-105` `estimate_rmse`: `base` is the deviation for unit sensitivity computed
by the constructor, `linf` is `none` when not given (reading `None` as a number in `_get_stddev` is reached only
for PRIVACY_ID_COUNT, where it is replaced by 1). -/
noncomputable def estimateRmse (metric : Metric) (noise : NoiseKind) (base : ℝ) (l0Table linfTable : List (ℚ × ℚ))
    (bins : List Bin) (l0 : ℚ) (linf : Option ℚ) : Except Err ℝ :=
  if metric ≠ .privacyIdCount ∧ linf = none then .error .valueError
  else do
    let r0 ← getRatio l0Table l0
    let rInf ← if metric ≠ .privacyIdCount then getRatio linfTable (linf.getD 0) else .ok 0
    let ratio : ℚ := 1 - (1 - r0) * (1 - rInf)
    .ok (rmseImpl (ratio : ℝ) (estimatorStd metric noise base (l0 : ℝ) ((linf.getD 1 : ℚ) : ℝ)) bins)

/-- A table of ratios as produced by `compute_ratio_dropped` (C35): thresholds increase from 0, ratios
decrease from 1 to 0. -/
structure RatioTable (t : List (ℚ × ℚ)) : Prop where
  sorted : t.Pairwise fun a b => a.1 < b.1 ∧ b.2 ≤ a.2
  head : t.head? = some (0, 1)
  last : ∃ m, t.getLast? = some (m, 0)

/-! ### Lemmas -/

/-- Interpolation on a segment. -/
def lerp (a b : ℚ × ℚ) (x : ℚ) : ℚ := (a.2 * (b.1 - x) + b.2 * (x - a.1)) / (b.1 - a.1)

theorem lerp_right (a b : ℚ × ℚ) (h : a.1 < b.1) : lerp a b b.1 = b.2 := by
  unfold lerp
  rw [sub_self, mul_zero, zero_add, mul_div_assoc, div_self (by linarith), mul_one]

theorem lerp_antitone (a b : ℚ × ℚ) (h : a.1 < b.1) (hy : b.2 ≤ a.2) {x y : ℚ} (hxy : x ≤ y) :
    lerp a b y ≤ lerp a b x := by
  unfold lerp
  apply div_le_div_of_nonneg_right _ (by linarith)
  nlinarith

theorem lerp_bounds (a b : ℚ × ℚ) (h : a.1 < b.1) (hy : b.2 ≤ a.2) {x : ℚ} (h1 : a.1 ≤ x) (h2 : x ≤ b.1) :
    b.2 ≤ lerp a b x ∧ lerp a b x ≤ a.2 := by
  unfold lerp
  constructor
  · rw [le_div_iff₀ (by linarith)]; nlinarith
  · rw [div_le_iff₀ (by linarith)]; nlinarith

theorem mem_takeWhile_holds {α : Type*} {p : α → Bool} {l : List α} {x : α} (h : x ∈ l.takeWhile p) : p x = true := by
  induction l with
  | nil => simp at h
  | cons y ys ih =>
    rw [List.takeWhile_cons] at h
    split at h
    · rename_i hy
      rcases List.mem_cons.mp h with rfl | h
      · exact hy
      · exact ih h
    · simp at h

theorem bisect_split {t : List (ℚ × ℚ)} (ht : RatioTable t) {bound : ℚ} (h0 : 0 < bound) (last : ℚ × ℚ)
    (hl : t.getLast? = some last) (hle : bound ≤ last.1) :
    ∃ pre a b post, t = pre ++ a :: b :: post ∧ a.1 < bound ∧ bound ≤ b.1 ∧ bisectLeft t (bound, 0) = pre.length + 1 := by
  -- the ratios are not negative
  have hnn : ∀ e ∈ t, 0 ≤ e.2 := by
    obtain ⟨m, hm⟩ := ht.last
    obtain ⟨ini, hini⟩ := List.getLast?_eq_some_iff.mp hm
    intro e he
    rw [hini] at he
    have hs := ht.sorted
    rw [hini] at hs
    rcases List.mem_append.mp he with he | he
    · exact ((List.pairwise_append.mp hs).2.2 e he (m, 0) (by simp)).2
    · rw [List.mem_singleton.mp he]
  have hp : ∀ e ∈ t, tupleLt e (bound, 0) = decide (e.1 < bound) := by
    intro e he
    unfold tupleLt
    rw [Bool.eq_iff_iff]
    simp only [decide_eq_true_eq]
    constructor
    · rintro (h | ⟨-, h⟩)
      · exact h
      · exact absurd h (not_lt.mpr (hnn e he))
    · exact Or.inl
  have hsplit := List.takeWhile_append_dropWhile (p := fun e => tupleLt e (bound, 0)) (l := t)
  set A := t.takeWhile fun e => tupleLt e (bound, 0) with hA
  set B := t.dropWhile fun e => tupleLt e (bound, 0) with hB
  have hlm : last ∈ t := List.mem_of_getLast? hl
  -- A is not empty: it contains (0, 1)
  have hAne : A ≠ [] := by
    intro h
    have hh := ht.head
    cases ht' : t with
    | nil => rw [ht'] at hh; simp at hh
    | cons x xs =>
      rw [ht'] at hh
      have hx : x = (0, 1) := by simpa using hh
      rw [hA, ht', List.takeWhile_cons] at h
      have : tupleLt x (bound, 0) = true := by rw [hp x (by rw [ht']; simp), hx]; simpa using h0
      rw [this] at h
      simp at h
  have hBne : B ≠ [] := by
    intro h
    rw [h, List.append_nil] at hsplit
    rw [← hsplit] at hlm
    have := mem_takeWhile_holds hlm
    rw [hp last (List.mem_of_getLast? hl)] at this
    have := of_decide_eq_true this
    linarith
  obtain ⟨b, post, hBc⟩ := List.exists_cons_of_ne_nil hBne
  obtain ⟨pre, a, hAc⟩ : ∃ pre a, A = pre ++ [a] := ⟨A.dropLast, A.getLast hAne, (List.dropLast_append_getLast hAne).symm⟩
  refine ⟨pre, a, b, post, ?_, ?_, ?_, ?_⟩
  · rw [← hsplit, hAc, hBc]; simp
  · have ham : a ∈ A := by rw [hAc]; simp
    have h1 := mem_takeWhile_holds ham
    rw [hp a (by rw [← hsplit]; exact List.mem_append_left _ ham)] at h1
    exact of_decide_eq_true h1
  · have h1 : ¬ tupleLt b (bound, 0) = true := by
      have := List.head_dropWhile_not (fun e => tupleLt e (bound, 0)) (l := t) (by rw [← hB]; exact hBne)
      simp only [← hB, hBc, List.head_cons] at this
      simp [this]
    rw [hp b (by rw [← hsplit, hBc]; simp)] at h1
    simp only [decide_eq_true_eq] at h1
    exact not_lt.mp h1
  · unfold bisectLeft
    rw [← hA, hAc]; simp

/-- On a table the estimate is the interpolation on the segment around the bound. -/
theorem getRatio_eq {t : List (ℚ × ℚ)} (ht : RatioTable t) {bound : ℚ} (h0 : 0 < bound) (last : ℚ × ℚ)
    (hl : t.getLast? = some last) (hle : bound ≤ last.1) :
    ∃ pre a b post, t = pre ++ a :: b :: post ∧ a.1 < bound ∧ bound ≤ b.1 ∧ getRatio t bound = .ok (lerp a b bound) := by
  obtain ⟨pre, a, b, post, h1, h2, h3, h4⟩ := bisect_split ht h0 last hl hle
  refine ⟨pre, a, b, post, h1, h2, h3, ?_⟩
  unfold getRatio
  rw [if_neg (not_le.mpr h0), hl]
  simp only
  rw [if_neg (not_lt.mpr hle), h4]
  have e1 : t[pre.length + 1]? = some b := by
    rw [h1, List.getElem?_append_right (by omega)]; simp
  have e2 : t[pre.length + 1 - 1]? = some a := by
    rw [h1, List.getElem?_append_right (by omega)]; simp
  rw [e1, e2]
  obtain ⟨a1, a2⟩ := a
  obtain ⟨b1, b2⟩ := b
  simp only at h2 h3 ⊢
  by_cases hb : b1 = bound
  · rw [if_pos hb]
    have := lerp_right (a1, a2) (b1, b2) (by simp only; linarith)
    simp only [hb] at this
    rw [hb, this]
  · rw [if_neg hb]; rfl

theorem table_bounds {t : List (ℚ × ℚ)} (ht : RatioTable t) : ∀ e ∈ t, 0 ≤ e.2 ∧ e.2 ≤ 1 := by
  intro e he
  constructor
  · obtain ⟨m, hm⟩ := ht.last
    obtain ⟨ini, hini⟩ := List.getLast?_eq_some_iff.mp hm
    have hs := ht.sorted
    rw [hini] at he hs
    rcases List.mem_append.mp he with he | he
    · exact ((List.pairwise_append.mp hs).2.2 e he (m, 0) (by simp)).2
    · rw [List.mem_singleton.mp he]
  · have hh := ht.head
    have hs := ht.sorted
    cases ht' : t with
    | nil => rw [ht'] at he; simp at he
    | cons x xs =>
      rw [ht'] at hh he hs
      have hx : x = (0, 1) := by simpa using hh
      rw [List.pairwise_cons] at hs
      rcases List.mem_cons.mp he with rfl | he
      · rw [hx]
      · have := (hs.1 e he).2; rw [hx] at this; exact this

/-! ### C53 -/

/-- **C53.** On a table of ratios the estimate always exists, is in [0, 1], is 1 for non-positive bounds, 0
beyond the last threshold, and the tabulated ratio at each positive threshold. -/
theorem C53_estimated_ratio (t : List (ℚ × ℚ)) (ht : RatioTable t) (bound : ℚ) :
    ∃ r, getRatio t bound = .ok r ∧ 0 ≤ r ∧ r ≤ 1 ∧ (bound ≤ 0 → r = 1) ∧
      (∀ m, t.getLast? = some m → m.1 < bound → r = 0) ∧ (∀ y, 0 < bound → (bound, y) ∈ t → r = y) := by
  obtain ⟨m, hm⟩ := ht.last
  by_cases h0 : bound ≤ 0
  · refine ⟨1, by unfold getRatio; rw [if_pos h0], by norm_num, le_rfl, fun _ => rfl, ?_, fun y h => absurd h (not_lt.mpr h0)⟩
    intro m' hm' hlt
    exfalso
    have hh := ht.head
    have hs := ht.sorted
    obtain ⟨ini, hini⟩ := List.getLast?_eq_some_iff.mp hm'
    cases ini with
    | nil =>
      rw [hini] at hh
      have : m' = (0, 1) := by simpa using hh
      rw [hm'] at hm
      have h2 : m' = (m, 0) := by simpa using hm
      rw [h2] at this
      simp at this
    | cons x xs =>
      rw [hini] at hh hs
      have hx : x = (0, 1) := by simpa using hh
      have := ((List.pairwise_append.mp hs).2.2 x (by simp) m' (by simp)).1
      rw [hx] at this
      simp only at this
      linarith
  · have h0' : 0 < bound := not_le.mp h0
    by_cases hlt : m < bound
    · refine ⟨0, ?_, le_rfl, by norm_num, fun h => absurd h h0, fun _ _ _ => rfl, ?_⟩
      · unfold getRatio; rw [if_neg h0, hm]; simp [hlt]
      · intro y _ hy
        exfalso
        have hs := ht.sorted
        obtain ⟨ini, hini⟩ := List.getLast?_eq_some_iff.mp hm
        rw [hini] at hs hy
        rcases List.mem_append.mp hy with hy | hy
        · have := ((List.pairwise_append.mp hs).2.2 _ hy (m, 0) (by simp)).1
          simp only at this; linarith
        · have := List.mem_singleton.mp hy
          simp only [Prod.mk.injEq] at this
          linarith
    · obtain ⟨pre, a, b, post, h1, h2, h3, h4⟩ := getRatio_eq ht h0' (m, 0) hm (not_lt.mp hlt)
      have hs := ht.sorted
      rw [h1] at hs
      have hs2 := (List.pairwise_append.mp hs).2.1
      rw [List.pairwise_cons] at hs2
      have hab := hs2.1 b (by simp)
      have hbd := lerp_bounds a b hab.1 hab.2 h2.le h3
      have ha := table_bounds ht a (by rw [h1]; simp)
      have hb := table_bounds ht b (by rw [h1]; simp)
      refine ⟨_, h4, le_trans hb.1 hbd.1, le_trans hbd.2 ha.2, fun h => absurd h h0, ?_, ?_⟩
      · intro m' hm' hlt'
        rw [hm] at hm'
        have : m' = (m, 0) := by simpa using hm'.symm
        rw [this] at hlt'
        exact absurd hlt' hlt
      · intro y _ hy
        rw [h1] at hy
        rcases List.mem_append.mp hy with hy | hy
        · have := ((List.pairwise_append.mp hs).2.2 _ hy a (by simp)).1
          simp only at this; linarith
        rcases List.mem_cons.mp hy with hy | hy
        · rw [← hy] at h2; simp at h2
        rcases List.mem_cons.mp hy with hy | hy
        · rw [← hy]
          exact lerp_right a (bound, y) (by simpa using h2)
        · have := (List.pairwise_cons.mp hs2.2).1 _ hy
          have h6 := this.1
          simp only at h6; linarith

/-- **C53.** The estimated ratio does not increase when the bound grows. -/
theorem C53_estimate_is_antitone (t : List (ℚ × ℚ)) (ht : RatioTable t) (x y : ℚ) (hxy : x ≤ y) (r s : ℚ)
    (hr : getRatio t x = .ok r) (hs : getRatio t y = .ok s) : s ≤ r := by
  obtain ⟨r', hr', r0, r1, rneg, rlast, -⟩ := C53_estimated_ratio t ht x
  obtain ⟨s', hs', s0, s1, sneg, slast, -⟩ := C53_estimated_ratio t ht y
  rw [hr] at hr'
  rw [hs] at hs'
  obtain rfl : r = r' := by simpa using hr'
  obtain rfl : s = s' := by simpa using hs'
  obtain ⟨m, hm⟩ := ht.last
  by_cases hx0 : x ≤ 0
  · rw [rneg hx0]; exact s1
  by_cases hym : m < y
  · rw [slast (m, 0) hm hym]; exact r0
  push Not at hx0 hym
  obtain ⟨pre, a, b, post, h1, h2, h3, h4⟩ := getRatio_eq ht hx0 (m, 0) hm (by simp only; linarith)
  obtain ⟨pre', a', b', post', g1, g2, g3, g4⟩ := getRatio_eq ht (lt_of_lt_of_le hx0 hxy) (m, 0) hm hym
  rw [hr] at h4
  rw [hs] at g4
  obtain rfl : r = lerp a b x := by simpa using h4
  obtain rfl : s = lerp a' b' y := by simpa using g4
  have hsort := ht.sorted
  have seg : ∀ pre a b post, t = pre ++ a :: b :: post → a.1 < b.1 ∧ b.2 ≤ a.2 := by
    intro pre a b post h
    rw [h] at hsort
    have := (List.pairwise_append.mp hsort).2.1
    rw [List.pairwise_cons] at this
    exact this.1 b (by simp)
  have hab := seg _ _ _ _ h1
  have hab' := seg _ _ _ _ g1
  -- compare the positions of the two segments
  rcases Nat.lt_trichotomy pre.length pre'.length with hlt | heq | hgt
  · -- a, b before a', b'
    have hbpos : t[pre.length + 1]? = some b := by
      rw [h1, List.getElem?_append_right (by omega)]; simp
    have ha'pos : t[pre'.length]? = some a' := by rw [g1]; simp
    have hba : b.2 ≥ a'.2 := by
      rcases Nat.eq_or_lt_of_le (Nat.succ_le_of_lt hlt) with he | hlt2
      · have : pre.length + 1 = pre'.length := he
        rw [this, ha'pos] at hbpos
        have : a' = b := by simpa using hbpos
        rw [this]
      · obtain ⟨hi, hi'⟩ := List.getElem?_eq_some_iff.mp hbpos
        obtain ⟨hj, hj'⟩ := List.getElem?_eq_some_iff.mp ha'pos
        have := List.pairwise_iff_getElem.mp hsort _ _ hi hj (by omega)
        rw [hi', hj'] at this
        exact this.2
    have e1 := (lerp_bounds a b hab.1 hab.2 h2.le h3).1
    have e2 := (lerp_bounds a' b' hab'.1 hab'.2 g2.le g3).2
    linarith
  · rw [h1] at g1
    obtain ⟨hp, hq⟩ := List.append_inj g1 heq
    simp only [List.cons.injEq] at hq
    obtain ⟨rfl, rfl, -⟩ := hq
    exact lerp_antitone a b hab.1 hab.2 hxy
  · exfalso
    have hapos : t[pre.length]? = some a := by rw [h1]; simp
    have hb'pos : t[pre'.length + 1]? = some b' := by
      rw [g1, List.getElem?_append_right (by omega)]; simp
    have : b'.1 ≤ a.1 := by
      rcases Nat.eq_or_lt_of_le (Nat.succ_le_of_lt hgt) with he | hlt2
      · have : pre'.length + 1 = pre.length := he
        rw [this, hapos] at hb'pos
        have : a = b' := by simpa using hb'pos
        rw [this]
      · obtain ⟨hi, hi'⟩ := List.getElem?_eq_some_iff.mp hb'pos
        obtain ⟨hj, hj'⟩ := List.getElem?_eq_some_iff.mp hapos
        have := List.pairwise_iff_getElem.mp hsort _ _ hi hj (by omega)
        rw [hi', hj'] at this
        exact this.1.le
    linarith

/-- The output of `compute_ratio_dropped` for a histogram of positive integers is such a table. -/
theorem C53_table_of_histogram (xs : List ℕ) (hpos : ∀ x ∈ xs, 1 ≤ x) (hne : xs ≠ []) (bins : List Bin)
    (h : IsCountHistogram xs bins) : RatioTable (ratioDropped bins) := by
  obtain ⟨h1, h2, ⟨m, -, -, h3⟩, -⟩ := C35_shape xs hpos hne bins h
  exact ⟨h1, h2, m, h3⟩

theorem exactRatio_convex (xs : List ℕ) (hne : xs ≠ []) (hpos : ∀ x ∈ xs, 1 ≤ x) (a b x : ℚ) (hab : a < b)
    (h1 : a ≤ x) (h2 : x ≤ b) :
    exactRatio xs x ≤ lerp (a, exactRatio xs a) (b, exactRatio xs b) x := by
  have hsum : (0 : ℚ) < ((xs.sum : ℕ) : ℚ) := by exact_mod_cast sum_pos_of_pos hne hpos
  unfold lerp exactRatio
  simp only
  rw [div_mul_eq_mul_div, div_mul_eq_mul_div, ← add_div, div_right_comm]
  apply div_le_div_of_nonneg_right _ hsum.le
  rw [le_div_iff₀ (by linarith)]
  unfold droppedBy
  clear hsum hne hpos
  induction xs with
  | nil => simp
  | cons n xs ih =>
    simp only [List.map_cons, List.sum_cons]
    have key : max ((n : ℚ) - x) 0 * (b - a) ≤ max ((n : ℚ) - a) 0 * (b - x) + max ((n : ℚ) - b) 0 * (x - a) := by
      have k1 := le_max_left ((n : ℚ) - a) 0
      have k2 := le_max_right ((n : ℚ) - a) 0
      have k3 := le_max_left ((n : ℚ) - b) 0
      have k4 := le_max_right ((n : ℚ) - b) 0
      rcases max_cases ((n : ℚ) - x) 0 with ⟨e, -⟩ | ⟨e, -⟩
      · rw [e]
        nlinarith
      · rw [e, zero_mul]
        have : 0 ≤ b - x := by linarith
        have : 0 ≤ x - a := by linarith
        positivity
    nlinarith [ih]

/-- **C53.** For the histogram of positive integers `xs` the estimated ratio for any positive bound is at least
the exact ratio of data dropped by this bound, with equality at the thresholds of the histogram. -/
theorem C53_estimate_vs_exact (xs : List ℕ) (hpos : ∀ x ∈ xs, 1 ≤ x) (hne : xs ≠ []) (bins : List Bin)
    (h : IsCountHistogram xs bins) (bound : ℚ) (h0 : 0 < bound) :
    ∃ r, getRatio (ratioDropped bins) bound = .ok r ∧ exactRatio xs bound ≤ r ∧
      ((∃ x ∈ xs, bound = ((binBounds x).1 : ℚ)) → r = exactRatio xs bound) := by
  have ht := C53_table_of_histogram xs hpos hne bins h
  obtain ⟨r, hr, -, -, -, hlast, hat⟩ := C53_estimated_ratio _ ht bound
  obtain ⟨-, -, ⟨m, hmx, hmm, hm⟩, hthr, -⟩ := C35_shape xs hpos hne bins h
  have hexact := C35_ratios_are_exact xs hpos bins h
  refine ⟨r, hr, ?_, ?_⟩
  · by_cases hlt : (m : ℚ) < bound
    · rw [hlast _ hm hlt]
      unfold exactRatio
      rw [droppedBy_above xs bound (fun x hx => by
        have : (x : ℚ) ≤ (m : ℚ) := by exact_mod_cast hmm x hx
        linarith), zero_div]
    · obtain ⟨pre, a, b, post, g1, g2, g3, g4⟩ := getRatio_eq ht h0 _ hm (not_lt.mp hlt)
      rw [hr] at g4
      obtain rfl : r = lerp a b bound := by simpa using g4
      have hs := ht.sorted
      rw [g1] at hs
      have hs2 := (List.pairwise_append.mp hs).2.1
      rw [List.pairwise_cons] at hs2
      have hab := (hs2.1 b (by simp)).1
      have ea := hexact a (by rw [g1]; simp)
      have eb := hexact b (by rw [g1]; simp)
      have := exactRatio_convex xs hne hpos a.1 b.1 bound hab g2.le g3
      rw [← ea, ← eb] at this
      exact this
  · intro hx
    obtain ⟨y, hy⟩ := (hthr bound).mpr (Or.inr (Or.inl hx))
    rw [hat y h0 hy]
    exact hexact _ hy

/-- **C53, gap.** For an empty dataset the estimator fails for every positive bound. -/
theorem C53_empty_histogram_fails (bound : ℚ) (h : 0 < bound) : getRatio (ratioDropped []) bound = .error .keyError := by
  simp [getRatio, ratioDropped, not_le.mpr h]

/-- **C53.** The estimated error is at least the noise (for bins with positive counts and a nonempty histogram),
and at most the noise plus the average of what is dropped. -/
theorem C53_rmse_bounds (ratio std : ℝ) (h0 : 0 ≤ ratio) (hstd : 0 ≤ std) (bins : List Bin) (hne : bins ≠ [])
    (hc : ∀ b ∈ bins, 0 < b.count) (hsum : ∀ b ∈ bins, 0 ≤ b.sum) :
    std ≤ rmseImpl ratio std bins ∧
    rmseImpl ratio std bins ≤ std + ratio * ((totalSum bins : ℚ) : ℝ) / totalCount bins := by
  have htot : (0 : ℝ) < totalCount bins := by
    have : 0 < totalCount bins := by
      obtain ⟨b, bs, rfl⟩ := List.exists_cons_of_ne_nil hne
      have := hc b List.mem_cons_self
      simp only [totalCount, List.map_cons, List.sum_cons]; omega
    exact_mod_cast this
  unfold rmseImpl
  have hcount : ((totalCount bins : ℕ) : ℝ) = (bins.map fun b => (b.count : ℝ)).sum := by
    unfold totalCount; rw [Nat.cast_list_sum, List.map_map]; rfl
  constructor
  · rw [le_div_iff₀ htot, hcount, ← List.sum_map_mul_left]
    apply List.sum_le_sum
    intro b hb
    rw [mul_comm]
    apply mul_le_mul_of_nonneg_left _ (by positivity)
    apply Real.le_sqrt_of_sq_le
    nlinarith [sq_nonneg (ratio * ((b.sum : ℝ) / b.count))]
  · rw [div_le_iff₀ htot, add_mul, div_mul_cancel₀ _ htot.ne']
    have hts : ((totalSum bins : ℚ) : ℝ) = (bins.map fun b => (b.sum : ℝ)).sum := by
      unfold totalSum
      clear htot hc hsum hne hcount
      induction bins with
      | nil => simp
      | cons b bs ih => simp [ih]
    rw [hcount, hts, ← List.sum_map_mul_left, ← List.sum_map_mul_left, ← List.sum_map_add]
    apply List.sum_le_sum
    intro b hb
    have hbc : (0 : ℝ) < b.count := by exact_mod_cast hc b hb
    have hbs : (0 : ℝ) ≤ (b.sum : ℝ) := by exact_mod_cast hsum b hb
    have hx : 0 ≤ ratio * ((b.sum : ℝ) / b.count) := by positivity
    have : Real.sqrt ((ratio * ((b.sum : ℝ) / b.count)) ^ 2 + std ^ 2) ≤ ratio * ((b.sum : ℝ) / b.count) + std := by
      rw [Real.sqrt_le_left (by positivity)]
      nlinarith
    calc (b.count : ℝ) * Real.sqrt ((ratio * ((b.sum : ℝ) / b.count)) ^ 2 + std ^ 2)
        ≤ (b.count : ℝ) * (ratio * ((b.sum : ℝ) / b.count) + std) := mul_le_mul_of_nonneg_left this hbc.le
      _ = std * (b.count : ℝ) + ratio * (b.sum : ℝ) := by field_simp; ring

/-- **C53.** The noise deviation for PRIVACY_ID_COUNT ignores the bound per partition; for COUNT it scales with it. -/
theorem C53_noise_scaling (noise : NoiseKind) (base l0 linf linf' : ℝ) :
    estimatorStd .privacyIdCount noise base l0 linf = estimatorStd .privacyIdCount noise base l0 linf' ∧
    estimatorStd .count noise base l0 linf = estimatorStd .count noise base l0 1 * linf := by
  constructor
  · simp [estimatorStd]
  · unfold estimatorStd; simp

/-- **C53.** `estimate_rmse` always succeeds on the tables of a nonempty dataset; the estimate is at least the
deviation of the noise, and exceeds it by at most the average partition size. -/
theorem C53_estimate_rmse (metric : Metric) (noise : NoiseKind) (base : ℝ) (hb : 0 ≤ base) (t0 tInf : List (ℚ × ℚ))
    (h0 : RatioTable t0) (hInf : RatioTable tInf) (bins : List Bin) (hne : bins ≠ [])
    (hc : ∀ b ∈ bins, 0 < b.count) (hs : ∀ b ∈ bins, 0 ≤ b.sum) (l0 linf : ℚ) (hl0 : 0 ≤ l0) (hlinf : 0 ≤ linf) :
    ∃ e, estimateRmse metric noise base t0 tInf bins l0 (some linf) = .ok e ∧
      estimatorStd metric noise base l0 linf ≤ e ∧
      e ≤ estimatorStd metric noise base l0 linf + ((totalSum bins : ℚ) : ℝ) / totalCount bins := by
  obtain ⟨r0, hr0, a1, a2, -⟩ := C53_estimated_ratio t0 h0 l0
  obtain ⟨rI, hrI, b1, b2, -⟩ := C53_estimated_ratio tInf hInf linf
  have hl0' : (0 : ℝ) ≤ (l0 : ℝ) := by exact_mod_cast hl0
  have hlinf' : (0 : ℝ) ≤ (linf : ℝ) := by exact_mod_cast hlinf
  have hstd : 0 ≤ estimatorStd metric noise base l0 linf := by
    unfold estimatorStd
    simp only
    split <;> split <;> positivity
  have main : ∀ ratio : ℚ, 0 ≤ ratio → ratio ≤ 1 →
      estimatorStd metric noise base l0 linf ≤ rmseImpl (ratio : ℝ) (estimatorStd metric noise base l0 linf) bins ∧
      rmseImpl (ratio : ℝ) (estimatorStd metric noise base l0 linf) bins ≤
        estimatorStd metric noise base l0 linf + ((totalSum bins : ℚ) : ℝ) / totalCount bins := by
    intro ratio g0 g1
    have g0' : (0 : ℝ) ≤ (ratio : ℝ) := by exact_mod_cast g0
    have g1' : (ratio : ℝ) ≤ 1 := by exact_mod_cast g1
    obtain ⟨k1, k2⟩ := C53_rmse_bounds ratio _ g0' hstd bins hne hc hs
    refine ⟨k1, le_trans k2 ?_⟩
    have hts : (0 : ℝ) ≤ ((totalSum bins : ℚ) : ℝ) := by
      have : 0 ≤ totalSum bins := by
        unfold totalSum
        apply List.sum_nonneg
        intro x hx
        obtain ⟨b, hb', rfl⟩ := List.mem_map.mp hx
        exact hs b hb'
      exact_mod_cast this
    have : (ratio : ℝ) * ((totalSum bins : ℚ) : ℝ) / totalCount bins ≤ ((totalSum bins : ℚ) : ℝ) / totalCount bins := by
      apply div_le_div_of_nonneg_right _ (by positivity)
      nlinarith
    linarith
  unfold estimateRmse
  rw [if_neg (by simp)]
  by_cases hm : metric = .privacyIdCount
  · refine ⟨_, ?_, main (1 - (1 - r0) * (1 - 0)) (by linarith) (by linarith)⟩
    simp only [hr0, hm, ne_eq, not_true_eq_false, if_false, Option.getD_some]
    rfl
  · refine ⟨_, ?_, main (1 - (1 - r0) * (1 - rI)) (by nlinarith) (by nlinarith)⟩
    simp only [hr0, hrI, hm, ne_eq, not_false_eq_true, if_true, Option.getD_some]
    rfl

/-- **C53.** Without a bound per partition only PRIVACY_ID_COUNT can be estimated. -/
theorem C53_linf_is_required (metric : Metric) (noise : NoiseKind) (base : ℝ) (t0 tInf : List (ℚ × ℚ)) (bins : List Bin)
    (l0 : ℚ) (hm : metric ≠ .privacyIdCount) :
    estimateRmse metric noise base t0 tInf bins l0 none = .error .valueError := by
  unfold estimateRmse; rw [if_pos ⟨hm, rfl⟩]

example : getRatio [(0, 1), (1, 5 / 9), (2, 1 / 3), (5, 0)] 3 = .ok (2 / 9) ∧
    getRatio [(0, 1), (1, 5 / 9), (2, 1 / 3), (5, 0)] 2 = .ok (1 / 3) ∧
    getRatio [(0, 1), (1, 5 / 9), (2, 1 / 3), (5, 0)] (-1) = .ok 1 ∧
    getRatio [(0, 1), (1, 5 / 9), (2, 1 / 3), (5, 0)] 6 = .ok 0 := by decide +kernel

example : RatioTable [(0, 1), (1, 5 / 9), (2, 1 / 3), (5, 0)] :=
  ⟨by simp; norm_num, rfl, 5, rfl⟩

end PDP.Histogram
