import Verif.Histogram.Props
import Mathlib.Tactic.FieldSimp
import Mathlib.Tactic.Positivity

/-! # Properties C35 and C53: ratio of dropped data -/

set_option linter.unusedSectionVars false
set_option linter.unusedVariables false

namespace PDP.Histogram

open PDP.Engine (Err)

/-- What is dropped from the data by the bound `t`: the parts of the values above `t`. -/
def droppedBy (xs : List ℕ) (t : ℚ) : ℚ := (xs.map fun x : ℕ => max ((x : ℚ) - t) 0).sum

/-- The exact ratio of dropped data. -/
def exactRatio (xs : List ℕ) (t : ℚ) : ℚ := droppedBy xs t / ((xs.sum : ℕ) : ℚ)

/-! ### Lemmas -/

/-- Sum over bins of what they hold above `t`. -/
def binsAbove (bins : List Bin) (t : ℚ) : ℚ := (bins.map fun c => c.sum - c.count * t).sum

theorem binsAbove_shift (bins : List Bin) (s t : ℚ) :
    binsAbove bins t = binsAbove bins s + totalCount bins * (s - t) := by
  induction bins with
  | nil => simp [binsAbove, totalCount]
  | cons b bins ih =>
    simp only [binsAbove, totalCount, List.map_cons, List.sum_cons] at ih ⊢
    rw [ih]; push_cast; ring

theorem ratioLoop_spec (total : ℚ) (D : ℚ → ℚ) (bins : List Bin)
    (hD : ∀ l b r, bins = l ++ b :: r → binsAbove (b :: r) b.lower = D b.lower)
    (rem done : List Bin) (hb : bins = rem.reverse ++ done) (prev : ℚ) :
    ratioLoop total rem (binsAbove done prev) (totalCount done) prev
      = rem.map fun b => (b.lower, D b.lower / total) := by
  induction rem generalizing done prev with
  | nil => rfl
  | cons b rem ih =>
    have hb' : bins = rem.reverse ++ b :: done := by rw [hb]; simp
    have h1 : binsAbove done prev + ((totalCount done : ℚ) * (prev - b.lower) + (b.sum - b.count * b.lower))
        = binsAbove (b :: done) b.lower := by
      have := binsAbove_shift done prev b.lower
      have h2 : binsAbove (b :: done) b.lower = (b.sum - b.count * b.lower) + binsAbove done b.lower := by
        simp [binsAbove]
      rw [h2, this]; ring
    have h2 : (totalCount done : ℚ) + b.count = ((totalCount (b :: done) : ℕ) : ℚ) := by
      simp only [totalCount, List.map_cons, List.sum_cons]; push_cast; ring
    unfold ratioLoop
    simp only [h1, h2]
    rw [ih (b :: done) hb', hD _ _ _ hb']
    simp

/-- In the histogram of integers, values of a bin to the left are below, the others not. -/
theorem value_vs_lower {xs : List ℕ} {bins : List Bin} (h : IsCountHistogram xs bins) {b c : Bin} (hb : b ∈ bins)
    (hc : c ∈ bins) {x : ℕ} (hx : x ∈ inBin intBounds c.lower xs) :
    (c.lower < b.lower → (x : ℚ) < b.lower) ∧ (b.lower ≤ c.lower → b.lower ≤ x) := by
  have hxl : ((binBounds x).1 : ℚ) = c.lower := of_decide_eq_true (List.mem_filter.mp hx).2
  obtain ⟨y, hy, hyl⟩ := (h.occupied b.lower).mp ⟨b, hb, rfl⟩
  simp only [intBounds] at hyl
  constructor
  · intro hlt
    rw [← hxl, ← hyl] at hlt
    have hlt' : (binBounds x).1 < (binBounds y).1 := by exact_mod_cast hlt
    rw [← hyl]
    have : x < (binBounds y).1 := by
      rcases C32_bins_partition_integers.2.2.1 x y with he | he | he
      · rw [he] at hlt'; omega
      · have := mem_bin x; omega
      · have := mem_bin y; omega
    exact_mod_cast this
  · intro hle
    refine le_trans hle ?_
    rw [← hxl]; exact_mod_cast (mem_bin x).1

theorem dropped_at_lower {xs : List ℕ} {bins : List Bin} (h : IsCountHistogram xs bins) (l : List Bin) (b : Bin)
    (r : List Bin) (hb : bins = l ++ b :: r) : binsAbove (b :: r) b.lower = droppedBy xs b.lower := by
  have hs := h.sorted
  rw [hb] at hs
  obtain ⟨s1, s2, s3⟩ := List.pairwise_append.mp hs
  rw [List.pairwise_cons] at s2
  have hbm : b ∈ bins := by rw [hb]; simp
  unfold droppedBy
  rw [← h.sum_bins (fun x : ℕ => max ((x : ℚ) - b.lower) 0), hb, List.map_append, List.sum_append]
  have e1 : (l.map fun c => ((inBin intBounds c.lower xs).map fun x : ℕ => max ((x : ℚ) - b.lower) 0).sum)
      = l.map fun _ => (0 : ℚ) := by
    apply List.map_congr_left
    intro c hc
    have hcm : c ∈ bins := by rw [hb]; exact List.mem_append_left _ hc
    have : (inBin intBounds c.lower xs).map (fun x : ℕ => max ((x : ℚ) - b.lower) 0)
        = (inBin intBounds c.lower xs).map fun _ => (0 : ℚ) := by
      apply List.map_congr_left
      intro x hx
      have := (value_vs_lower h hbm hcm hx).1 (s3 c hc b List.mem_cons_self)
      exact max_eq_right (by linarith)
    rw [this]; simp
  have e2 : ((b :: r).map fun c => ((inBin intBounds c.lower xs).map fun x : ℕ => max ((x : ℚ) - b.lower) 0).sum)
      = (b :: r).map fun c => c.sum - c.count * b.lower := by
    apply List.map_congr_left
    intro c hc
    have hcm : c ∈ bins := by rw [hb]; exact List.mem_append_right _ hc
    have hle : b.lower ≤ c.lower := by
      rcases List.mem_cons.mp hc with rfl | hc
      · exact le_rfl
      · exact (s2.1 c hc).le
    have : (inBin intBounds c.lower xs).map (fun x : ℕ => max ((x : ℚ) - b.lower) 0)
        = (inBin intBounds c.lower xs).map fun x : ℕ => (x : ℚ) - b.lower := by
      apply List.map_congr_left
      intro x hx
      have := (value_vs_lower h hbm hcm hx).2 hle
      exact max_eq_left (by linarith)
    rw [this, h.sum c hcm, h.count c hcm]
    generalize inBin intBounds c.lower xs = ys
    induction ys with
    | nil => simp
    | cons y ys ih =>
      simp only [List.map_cons, List.sum_cons, List.length_cons] at ih ⊢
      rw [ih]; push_cast; ring
  rw [e1, e2]
  simp [binsAbove]

theorem totalSum_eq {xs : List ℕ} {bins : List Bin} (h : IsCountHistogram xs bins) :
    totalSum bins = ((xs.sum : ℕ) : ℚ) := by
  have h1 := h.sum_bins (fun n : ℕ => (n : ℚ))
  unfold totalSum
  rw [Nat.cast_list_sum, ← h1]
  congr 1
  apply List.map_congr_left
  intro b hb
  exact h.sum b hb

theorem droppedBy_antitone (xs : List ℕ) {s t : ℚ} (h : s ≤ t) : droppedBy xs t ≤ droppedBy xs s := by
  apply List.sum_le_sum
  intro x _
  exact max_le_max (by linarith) le_rfl

theorem droppedBy_zero (xs : List ℕ) : droppedBy xs 0 = ((xs.sum : ℕ) : ℚ) := by
  unfold droppedBy
  rw [Nat.cast_list_sum]
  congr 1
  apply List.map_congr_left
  intro x _
  simp

theorem droppedBy_above (xs : List ℕ) (t : ℚ) (h : ∀ x ∈ xs, (x : ℚ) ≤ t) : droppedBy xs t = 0 := by
  unfold droppedBy
  have : (xs.map fun x : ℕ => max ((x : ℚ) - t) 0) = xs.map fun _ => (0 : ℚ) := by
    apply List.map_congr_left
    intro x hx
    exact max_eq_right (by have := h x hx; linarith)
  rw [this]; simp

theorem sum_pos_of_pos {xs : List ℕ} (hne : xs ≠ []) (hpos : ∀ x ∈ xs, 1 ≤ x) : 0 < xs.sum := by
  cases xs with
  | nil => exact absurd rfl hne
  | cons x xs => have := hpos x List.mem_cons_self; simp only [List.sum_cons]; omega

/-- Closed form of the output. -/
theorem ratioDropped_eq {xs : List ℕ} {bins : List Bin} (h : IsCountHistogram xs bins) (last : Bin)
    (hl : bins.getLast? = some last) :
    ratioDropped bins = (0, 1) :: (bins.map fun b => (b.lower, exactRatio xs b.lower))
      ++ (if last.max ≠ last.lower then [(last.max, (0 : ℚ))] else []) := by
  unfold ratioDropped
  rw [hl]
  simp only
  have h0 := ratioLoop_spec (totalSum bins) (droppedBy xs) bins (dropped_at_lower h) bins.reverse [] (by simp) last.lower
  have hz : binsAbove [] last.lower = 0 := by simp [binsAbove]
  have hz2 : ((totalCount [] : ℕ) : ℚ) = 0 := by simp [totalCount]
  rw [hz, hz2] at h0
  rw [h0, totalSum_eq h]
  simp only [List.reverse_append, List.reverse_singleton, List.map_reverse, List.reverse_reverse]
  have : ∀ c : Prop, [Decidable c] → (if c then [(last.max, (0 : ℚ))] else []).reverse = if c then [(last.max, 0)] else [] := by
    intro c _; split <;> rfl
  rw [this]
  simp [exactRatio]

theorem max_last {xs : List ℕ} {bins : List Bin} (h : IsCountHistogram xs bins) (last : Bin)
    (hl : bins.getLast? = some last) :
    last ∈ bins ∧ (∃ x ∈ xs, (x : ℚ) = last.max) ∧ (∀ x ∈ xs, (x : ℚ) ≤ last.max) ∧
      (∀ b ∈ bins, b.lower ≤ last.lower) ∧ last.lower ≤ last.max := by
  obtain ⟨ini, hb⟩ := List.getLast?_eq_some_iff.mp hl
  have hm : last ∈ bins := by rw [hb]; simp
  have hs := h.sorted
  rw [hb] at hs
  have hle : ∀ b ∈ bins, b.lower ≤ last.lower := by
    intro b hbm
    rw [hb] at hbm
    rcases List.mem_append.mp hbm with hbm | hbm
    · exact ((List.pairwise_append.mp hs).2.2 b hbm last (by simp)).le
    · rw [List.mem_singleton.mp hbm]
  obtain ⟨⟨x, hx, hxe⟩, hmax⟩ := h.max last hm
  have hxs : x ∈ xs := (List.mem_filter.mp hx).1
  have hll : last.lower ≤ last.max := by
    rw [← hxe]
    exact (value_vs_lower h hm hm hx).2 le_rfl
  refine ⟨hm, ⟨x, hxs, hxe⟩, ?_, hle, hll⟩
  intro y hy
  obtain ⟨c, hc, hcl⟩ := (h.occupied _).mpr ⟨y, hy, rfl⟩
  have hyc : y ∈ inBin intBounds c.lower xs := List.mem_filter.mpr ⟨hy, by simp [hcl]⟩
  rcases lt_or_eq_of_le (hle c hc) with hlt | heq
  · exact le_trans ((value_vs_lower h hm hc hyc).1 hlt).le hll
  · rw [heq] at hyc
    exact hmax y hyc

/-! ### C35 -/

/-- **C35.** For the histogram of positive integers `xs`, each pair `(t, ratio)` of `compute_ratio_dropped` has
`ratio = Σ max(x - t, 0) / Σ x`. -/
theorem C35_ratios_are_exact (xs : List ℕ) (hpos : ∀ x ∈ xs, 1 ≤ x) (bins : List Bin) (h : IsCountHistogram xs bins) :
    ∀ e ∈ ratioDropped bins, e.2 = exactRatio xs e.1 := by
  intro e he
  cases hl : bins.getLast? with
  | none => simp [ratioDropped, hl] at he
  | some last =>
    obtain ⟨hm, ⟨x0, hx0, hxe⟩, hmax, hle, hll⟩ := max_last h last hl
    have hne : xs ≠ [] := List.ne_nil_of_mem hx0
    have hsum : (0 : ℚ) < ((xs.sum : ℕ) : ℚ) := by exact_mod_cast sum_pos_of_pos hne hpos
    rw [ratioDropped_eq h last hl] at he
    rcases List.mem_append.mp he with he | he
    · rcases List.mem_cons.mp he with rfl | he
      · unfold exactRatio
        rw [droppedBy_zero, div_self hsum.ne']
      · obtain ⟨b, -, rfl⟩ := List.mem_map.mp he
        rfl
    · split at he
      · rw [List.mem_singleton.mp he]
        unfold exactRatio
        rw [droppedBy_above xs _ hmax, zero_div]
      · simp at he

/-- **C35.** The thresholds are strictly increasing from 0 to the largest value; they are 0, the lower ends of
the bins and the largest value; the ratios do not increase and go from 1 to 0. -/
theorem C35_shape (xs : List ℕ) (hpos : ∀ x ∈ xs, 1 ≤ x) (hne : xs ≠ []) (bins : List Bin)
    (h : IsCountHistogram xs bins) :
    (ratioDropped bins).Pairwise (fun a b => a.1 < b.1 ∧ b.2 ≤ a.2) ∧
    (ratioDropped bins).head? = some (0, 1) ∧
    (∃ m ∈ xs, (∀ x ∈ xs, x ≤ m) ∧ (ratioDropped bins).getLast? = some ((m : ℚ), 0)) ∧
    (∀ t, (∃ r, (t, r) ∈ ratioDropped bins) ↔ t = 0 ∨ (∃ x ∈ xs, t = ((binBounds x).1 : ℚ)) ∨
      ∃ m ∈ xs, (∀ x ∈ xs, x ≤ m) ∧ t = (m : ℚ)) ∧
    (xs.map fun x : ℕ => (x : ℚ)).sum ≠ 0 := by
  have hexact := C35_ratios_are_exact xs hpos bins h
  have hbne : bins ≠ [] := by
    intro hb
    obtain ⟨x, hx⟩ := List.exists_mem_of_ne_nil _ hne
    obtain ⟨b, hb', -⟩ := (h.occupied _).mpr ⟨x, hx, rfl⟩
    rw [hb] at hb'; simp at hb'
  obtain ⟨last, hl⟩ : ∃ last, bins.getLast? = some last := by
    cases hl : bins.getLast? with
    | none => exact absurd (List.getLast?_eq_none_iff.mp hl) hbne
    | some last => exact ⟨last, rfl⟩
  obtain ⟨hm, ⟨m, hmx, hme⟩, hmax, hle, hll⟩ := max_last h last hl
  have hsum : (0 : ℚ) < ((xs.sum : ℕ) : ℚ) := by exact_mod_cast sum_pos_of_pos hne hpos
  have hmax' : ∀ x ∈ xs, x ≤ m := by
    intro x hx
    have := hmax x hx
    rw [← hme] at this; exact_mod_cast this
  have heq := ratioDropped_eq h last hl
  have hlow : ∀ b ∈ bins, 0 < b.lower := by
    intro b hb
    obtain ⟨y, hy, hyl⟩ := (h.occupied b.lower).mp ⟨b, hb, rfl⟩
    rw [← hyl]
    have := bin_lower_pos (hpos y hy)
    have h2 : (1 : ℚ) ≤ ((binBounds y).1 : ℚ) := by exact_mod_cast this
    show (0 : ℚ) < ((binBounds y).1 : ℚ)
    linarith
  have hstrict : (ratioDropped bins).Pairwise (fun a b => a.1 < b.1) := by
    rw [heq, List.pairwise_append]
    refine ⟨List.pairwise_cons.mpr ⟨?_, ?_⟩, ?_, ?_⟩
    · intro e he
      obtain ⟨b, hb, rfl⟩ := List.mem_map.mp he
      exact hlow b hb
    · rw [List.pairwise_map]; exact h.sorted
    · split <;> simp
    · intro a ha e he
      split at he
      case isFalse => simp at he
      case isTrue hneq =>
        rw [List.mem_singleton.mp he]
        have hlt : last.lower < last.max := lt_of_le_of_ne hll (Ne.symm hneq)
        rcases List.mem_cons.mp ha with rfl | ha
        · exact lt_trans (hlow last hm) hlt
        · obtain ⟨b, hb, rfl⟩ := List.mem_map.mp ha
          exact lt_of_le_of_lt (hle b hb) hlt
  refine ⟨?_, ?_, ⟨m, hmx, hmax', ?_⟩, ?_, ?_⟩
  · refine List.Pairwise.imp_of_mem ?_ hstrict
    intro a b ha hb hlt
    refine ⟨hlt, ?_⟩
    rw [hexact a ha, hexact b hb]
    exact div_le_div_of_nonneg_right (droppedBy_antitone xs hlt.le) hsum.le
  · rw [heq]; rfl
  · rw [heq, hme]
    by_cases hneq : last.max ≠ last.lower
    · rw [if_pos hneq, List.getLast?_append]; simp
    · rw [if_neg hneq, List.append_nil]
      push Not at hneq
      obtain ⟨ini, hb⟩ := List.getLast?_eq_some_iff.mp hl
      have hz : exactRatio xs last.lower = 0 := by
        unfold exactRatio
        rw [droppedBy_above xs _ (by rw [← hneq]; exact hmax), zero_div]
      rw [hb]
      simp [List.getLast?_cons, hz, hneq]
  · intro t
    rw [heq]
    constructor
    · rintro ⟨r, hr⟩
      rcases List.mem_append.mp hr with hr | hr
      · rcases List.mem_cons.mp hr with hr | hr
        · left; simpa using congrArg Prod.fst hr
        · obtain ⟨b, hb, hbe⟩ := List.mem_map.mp hr
          obtain ⟨y, hy, hyl⟩ := (h.occupied b.lower).mp ⟨b, hb, rfl⟩
          right; left
          refine ⟨y, hy, ?_⟩
          have : t = b.lower := by simpa using (congrArg Prod.fst hbe).symm
          rw [this, ← hyl]; rfl
      · right; right
        split at hr
        · have : t = last.max := by simpa using congrArg Prod.fst (List.mem_singleton.mp hr)
          exact ⟨m, hmx, hmax', by rw [this, hme]⟩
        · simp at hr
    · rintro (rfl | ⟨x, hx, rfl⟩ | ⟨m', hm', hmm, rfl⟩)
      · exact ⟨1, by simp⟩
      · obtain ⟨b, hb, hbl⟩ := (h.occupied _).mpr ⟨x, hx, rfl⟩
        refine ⟨exactRatio xs b.lower, List.mem_append_left _ (List.mem_cons_of_mem _ ?_)⟩
        refine List.mem_map.mpr ⟨b, hb, ?_⟩
        rw [← hbl.symm]; rfl
      · have hmm' : m' = m := le_antisymm (hmax' m' hm') (hmm m hmx)
        rw [hmm', hme]
        by_cases hneq : last.max ≠ last.lower
        · refine ⟨0, ?_⟩
          rw [if_pos hneq]; simp
        · push Not at hneq
          refine ⟨exactRatio xs last.lower, List.mem_append_left _ (List.mem_cons_of_mem _ ?_)⟩
          exact List.mem_map.mpr ⟨last, hm, by rw [hneq]⟩
  · have : (xs.map fun x : ℕ => (x : ℚ)).sum = ((xs.sum : ℕ) : ℚ) := by rw [Nat.cast_list_sum]
    rw [this]; exact hsum.ne'

/-- An empty histogram has no ratios. -/
theorem C35_empty : ratioDropped [] = [] := rfl

/-- Values 1, 1, 2, 5: bounding by 2 drops a third of the data. -/
example : ratioDropped [⟨1, 2, 2, 2, 1, 1⟩, ⟨2, 3, 1, 2, 2, 2⟩, ⟨5, 6, 1, 5, 5, 5⟩]
    = [(0, 1), (1, 5 / 9), (2, 1 / 3), (5, 0)] := by decide +kernel

end PDP.Histogram
