import Verif.Histogram.PreAgg

/-!
# Property C52: sum histograms

Model of `dataset_histograms/sum_histogram_computation.py`.  Floats are rationals.
-/

set_option linter.unusedSectionVars false
set_option linter.unusedVariables false

namespace PDP.Histogram

open PDP.Engine (Err IsCombine MergeTree)

/-- `sum_histogram_computation.py:41-85` `LowerUpperGenerator`. -/
structure Generator where
  left : ℚ
  right : ℚ
  num : ℕ
  len : ℚ
  deriving DecidableEq, Repr

/-- `__init__` (56-66), for `left <= right` and a positive number of buckets. -/
def mkGenerator (left right : ℚ) (n : ℕ) : Generator :=
  ⟨left, right, if left < right then n else 1, (right - left) / n⟩

/-- `get_bucket_index` (68-75): the second test of `x >= right` is never reached; `int` truncates a positive
number. -/
def Generator.index (g : Generator) (x : ℚ) : ℕ :=
  if g.right ≤ x then g.num - 1
  else if x ≤ g.left then 0
  else ⌊(x - g.left) / g.len⌋.toNat

/-- `_get_lower` (81-82). -/
def Generator.lower (g : Generator) (i : ℕ) : ℚ := g.left + i * g.len

/-- `_get_upper` (84-85). -/
def Generator.upper (g : Generator) (i : ℕ) : ℚ := g.left + (i + 1) * g.len

/-- `get_lower_upper` (77-79). -/
def Generator.lowerUpper (g : Generator) (x : ℚ) : ℚ × ℚ := (g.lower (g.index x), g.upper (g.index x))

/-- `pipeline_functions.py:103-116` `min_max_per_key`. -/
def minMaxPerKey {K : Type} [DecidableEq K] (O : Ops) (col : List (K × ℚ)) : List (K × (ℚ × ℚ)) :=
  O.reducePerKey (fun x y => (min x.1 y.1, max x.2 y.2)) (col.map fun e => (e.1, (e.2, e.2)))

/-- `sorted` of pairs with distinct integer keys. -/
def sortByIndex {A : Type} (l : List (ℕ × A)) : List (ℕ × A) := l.insertionSort fun a b => a.1 ≤ b.1

/-- `sum_histogram_computation.py:166-193` `_create_bucket_generators_per_key`. -/
def generators (O : Ops) (n : ℕ) (col : List (ℕ × ℚ)) : List Generator :=
  (sortByIndex (minMaxPerKey O col)).map fun e => mkGenerator e.2.1 e.2.2 n

/-- `sum_histogram_computation.py:112-127` `_map_to_frequency_bin`; `bucket_generators[0][index]` may raise
`IndexError`, modelled as `keyError`. -/
def toSumBin (gens : List Generator) (e : ℕ × ℚ) : Except Err ((ℕ × ℚ) × Bin) :=
  match gens[e.1]? with
  | none => .error .keyError
  | some g => .ok ((e.1, (g.lowerUpper e.2).1), ⟨(g.lowerUpper e.2).1, (g.lowerUpper e.2).2, 1, e.2, e.2, e.2⟩)

/-- `sum_histogram_computation.py:88-163` `_compute_frequency_histogram_per_key`: the histograms sorted by
index.  (A single histogram is returned without the list around it.) -/
def sumHistograms (O : Ops) (n : ℕ) (col : List (ℕ × ℚ)) : Except Err (List (ℕ × List Bin)) := do
  let items ← col.mapM (toSumBin (generators O n col))
  let reduced := O.reducePerKey Bin.add items
  let grouped := O.group (reduced.map fun e => (e.1.1, e.2))
  .ok (sortByIndex (grouped.map fun e => (e.1, sortBins e.2)))

/-- `sum_histogram_computation.py:196-220` `_flat_values`, for rows with a list of values (one value is a list
of one). -/
def flatValues {K : Type} (col : List (K × List ℚ)) : List ((ℕ × K) × ℚ) :=
  col.flatMap fun e => e.2.zipIdx.map fun v => ((v.2, e.1), v.1)

variable {P K : Type} [DecidableEq P] [DecidableEq K]

/-- `sum_histogram_computation.py:223-252` `_compute_linf_sum_contributions_histogram`. -/
def linfSumHistograms (O : Ops) (n : ℕ) (rows : List (P × K × List ℚ)) : Except Err (List (ℕ × List Bin)) :=
  sumHistograms O n ((O.sumPerKey (flatValues (rows.map fun r => ((r.1, r.2.1), r.2.2)))).map fun e => (e.1.1, e.2))

/-- `sum_histogram_computation.py:255-281` `_compute_partition_sum_histogram`. -/
def partitionSumHistograms (O : Ops) (n : ℕ) (rows : List (P × K × List ℚ)) : Except Err (List (ℕ × List Bin)) :=
  sumHistograms O n ((O.sumPerKey (flatValues (rows.map fun r => (r.2.1, r.2.2)))).map fun e => (e.1.1, e.2))

/-- `sum_histogram_computation.py:284-316`
`_compute_linf_sum_contributions_histogram_on_preaggregated_data`, one value column. -/
def preLinfSumHistograms (O : Ops) (n : ℕ) (col : List (K × PreRow)) : Except Err (List (ℕ × List Bin)) :=
  sumHistograms O n ((flatValues (col.map fun e => ((), [e.2.sum]))).map fun e => (e.1.1, e.2))

/-- `sum_histogram_computation.py:319-350` `_compute_partition_sum_histogram_on_preaggregated_data`, one value
column. -/
def prePartitionSumHistograms (O : Ops) (n : ℕ) (col : List (K × PreRow)) : Except Err (List (ℕ × List Bin)) :=
  sumHistograms O n ((O.sumPerKey (flatValues (col.map fun e => (e.1, [e.2.sum])))).map fun e => (e.1.1, e.2))

/-! ### Buckets -/

/-- **C52.** For a value between the ends, the bucket index is in range and the bucket contains the value; only
the last bucket contains its right end. -/
theorem C52_bucket_contains_value (left right x : ℚ) (n : ℕ) (hn : 0 < n) (h1 : left ≤ x) (h2 : x ≤ right) :
    let g := mkGenerator left right n
    g.index x < g.num ∧ (g.lowerUpper x).1 ≤ x ∧
      (x < (g.lowerUpper x).2 ∨ (x = right ∧ (g.lowerUpper x).2 = right ∧ g.index x = g.num - 1)) := by
  intro g
  have hn' : (0 : ℚ) < n := by exact_mod_cast hn
  by_cases hx : right ≤ x
  · have hxr : x = right := le_antisymm h2 hx
    have hi : g.index x = g.num - 1 := if_pos hx
    unfold Generator.lowerUpper
    rw [hi]
    by_cases hlt : left < right
    · have hnum : g.num = n := if_pos hlt
      rw [hnum]
      have hlen : g.len = (right - left) / n := rfl
      have hleft : g.left = left := rfl
      refine ⟨by omega, ?_, Or.inr ⟨hxr, ?_, rfl⟩⟩
      · show g.left + ((n - 1 : ℕ) : ℚ) * g.len ≤ x
        rw [hlen, hleft, Nat.cast_sub hn, hxr]
        have : ((n : ℚ) - 1) * ((right - left) / n) ≤ n * ((right - left) / n) := by
          apply mul_le_mul_of_nonneg_right (by linarith)
          apply div_nonneg <;> linarith
        rw [mul_div_cancel₀ _ hn'.ne'] at this
        push_cast; linarith
      · show g.left + (((n - 1 : ℕ) : ℚ) + 1) * g.len = right
        rw [hlen, hleft, Nat.cast_sub hn]
        push_cast
        rw [sub_add_cancel, mul_div_cancel₀ _ hn'.ne']; ring
    · have heq : left = right := le_antisymm (le_trans h1 h2) (not_lt.mp hlt)
      have hnum : g.num = 1 := if_neg hlt
      rw [hnum]
      have hlen : g.len = 0 := by show (right - left) / n = 0; rw [heq]; simp
      have hleft : g.left = left := rfl
      refine ⟨by omega, ?_, Or.inr ⟨hxr, ?_, rfl⟩⟩
      · show g.left + _ * g.len ≤ x; rw [hlen, hleft]; linarith
      · show g.left + _ * g.len = right; rw [hlen, hleft]; linarith
  · have hlt : left < right := by linarith [not_le.mp hx]
    have hnum : g.num = n := if_pos hlt
    have hlenpos : 0 < g.len := by show 0 < (right - left) / n; apply div_pos <;> linarith
    have hlen : g.len * n = right - left := by show (right - left) / n * n = _; field_simp
    have hleft : g.left = left := rfl
    by_cases hxl : x ≤ left
    · have hi : g.index x = 0 := (if_neg hx).trans (if_pos hxl)
      unfold Generator.lowerUpper
      rw [hi, hnum]
      refine ⟨hn, ?_, Or.inl ?_⟩
      · show g.left + ((0 : ℕ) : ℚ) * g.len ≤ x; rw [hleft]; simp; exact h1
      · show x < g.left + (((0 : ℕ) : ℚ) + 1) * g.len; rw [hleft]; push_cast; linarith
    · have hi : g.index x = ⌊(x - left) / g.len⌋.toNat := (if_neg hx).trans (if_neg hxl)
      have hq : 0 ≤ (x - left) / g.len := div_nonneg (by linarith) hlenpos.le
      have hcast : ((g.index x : ℕ) : ℚ) = (⌊(x - left) / g.len⌋ : ℚ) := by
        rw [hi]
        have : ((⌊(x - left) / g.len⌋.toNat : ℕ) : ℤ) = ⌊(x - left) / g.len⌋ := Int.toNat_of_nonneg (Int.floor_nonneg.mpr hq)
        exact_mod_cast congrArg (fun z : ℤ => (z : ℚ)) this
      have f1 : ((g.index x : ℕ) : ℚ) ≤ (x - left) / g.len := by rw [hcast]; exact Int.floor_le _
      have f2 : (x - left) / g.len < ((g.index x : ℕ) : ℚ) + 1 := by rw [hcast]; exact Int.lt_floor_add_one _
      rw [le_div_iff₀ hlenpos] at f1
      rw [div_lt_iff₀ hlenpos] at f2
      refine ⟨?_, ?_, Or.inl ?_⟩
      · rw [hnum]
        have : ((g.index x : ℕ) : ℚ) * g.len < n * g.len := by linarith [not_le.mp hx]
        have := lt_of_mul_lt_mul_right this hlenpos.le
        exact_mod_cast this
      · show g.left + _ * g.len ≤ x; rw [hleft]; linarith
      · show x < g.left + _ * g.len; rw [hleft]; linarith

/-- **C52.** The buckets tile the interval: the first starts at the left end, each starts where the previous one
ends, and the last one ends at the right end; all have the same length, positive when the ends differ. -/
theorem C52_buckets_tile (left right : ℚ) (n : ℕ) (hn : 0 < n) (h : left ≤ right) :
    let g := mkGenerator left right n
    g.lower 0 = left ∧ (∀ i, g.upper i = g.lower (i + 1)) ∧ g.upper (g.num - 1) = right ∧
      (∀ i, g.upper i - g.lower i = (right - left) / n) ∧ (left < right → g.num = n ∧ ∀ i, g.lower i < g.upper i) := by
  intro g
  have hn' : (0 : ℚ) < n := by exact_mod_cast hn
  refine ⟨?_, ?_, ?_, ?_, ?_⟩
  · show left + ((0 : ℕ) : ℚ) * _ = left; simp
  · intro i; show left + ((i : ℚ) + 1) * _ = left + ((i + 1 : ℕ) : ℚ) * _; push_cast; rfl
  · have := C52_bucket_contains_value left right right n hn h le_rfl
    rcases this.2.2 with h3 | h3
    · exfalso
      have hi : g.index right = g.num - 1 := if_pos (le_refl right)
      by_cases hlt : left < right
      · have hnum : g.num = n := if_pos hlt
        have : (g.lowerUpper right).2 = right := by
          show left + (((g.index right : ℕ) : ℚ) + 1) * ((right - left) / n) = right
          rw [hi, hnum, Nat.cast_sub hn]
          push_cast
          rw [sub_add_cancel, mul_div_cancel₀ _ hn'.ne']; ring
        have h3' : right < (g.lowerUpper right).2 := h3
        rw [this] at h3'
        exact lt_irrefl _ h3'
      · have heq : left = right := le_antisymm h (not_lt.mp hlt)
        have : (g.lowerUpper right).2 = right := by
          show left + _ * ((right - left) / n) = right
          rw [heq]; simp
        have h3' : right < (g.lowerUpper right).2 := h3
        rw [this] at h3'
        exact lt_irrefl _ h3'
    · have h4 : g.upper (g.index right) = right := h3.2.1
      have hi : g.index right = g.num - 1 := h3.2.2
      rw [hi] at h4
      exact h4
  · intro i; show left + ((i : ℚ) + 1) * ((right - left) / n) - (left + (i : ℚ) * ((right - left) / n)) = _; ring
  · intro hlt
    refine ⟨if_pos hlt, ?_⟩
    intro i
    have : 0 < (right - left) / n := by apply div_pos <;> linarith
    show left + (i : ℚ) * ((right - left) / n) < left + ((i : ℚ) + 1) * ((right - left) / n)
    linarith

/-- **C52.** Values outside of the interval go to the first and last bucket. -/
theorem C52_clamped (left right x : ℚ) (n : ℕ) (h : left < right) :
    (x ≤ left → (mkGenerator left right n).index x = 0) ∧
    (right ≤ x → (mkGenerator left right n).index x = n - 1) := by
  constructor
  · intro hx
    unfold Generator.index mkGenerator
    simp only
    rw [if_neg (by linarith), if_pos hx]
  · intro hx
    unfold Generator.index mkGenerator
    simp only
    rw [if_pos hx, if_pos h]

/-! ### Histograms per column -/

theorem lowerUpper_upper (left right : ℚ) (n : ℕ) (x y : ℚ)
    (h : ((mkGenerator left right n).lowerUpper x).1 = ((mkGenerator left right n).lowerUpper y).1) :
    ((mkGenerator left right n).lowerUpper x).2 = ((mkGenerator left right n).lowerUpper y).2 := by
  have e : ∀ z, ((mkGenerator left right n).lowerUpper z).2 = ((mkGenerator left right n).lowerUpper z).1 + (mkGenerator left right n).len := by
    intro z; unfold Generator.lowerUpper Generator.lower Generator.upper; ring
  rw [e, e, h]

/-- `lo` and `hi` are the least and greatest element of a list. -/
def IsMinMax (xs : List ℚ) (lo hi : ℚ) : Prop := lo ∈ xs ∧ hi ∈ xs ∧ ∀ x ∈ xs, lo ≤ x ∧ x ≤ hi

theorem IsMinMax.unique {xs : List ℚ} {a b c d : ℚ} (h1 : IsMinMax xs a b) (h2 : IsMinMax xs c d) : a = c ∧ b = d :=
  ⟨le_antisymm (h1.2.2 c h2.1).1 (h2.2.2 a h1.1).1, le_antisymm (h2.2.2 b h1.2.1).2 (h1.2.2 d h2.2.1).2⟩

theorem eval_minMax (t : MergeTree (ℚ × ℚ)) (xs : List ℚ) (h : t.leaves = xs.map fun x => (x, x)) :
    IsMinMax xs (t.eval fun x y => (min x.1 y.1, max x.2 y.2)).1 (t.eval fun x y => (min x.1 y.1, max x.2 y.2)).2 := by
  induction t generalizing xs with
  | leaf a =>
    cases xs with
    | nil => simp [MergeTree.leaves] at h
    | cons x xs =>
      simp only [MergeTree.leaves, List.map_cons, List.cons.injEq] at h
      obtain ⟨rfl, h2⟩ := h
      have : xs = [] := by simpa using h2.symm
      subst this
      simp [IsMinMax, MergeTree.eval]
  | node l r hl hr =>
    simp only [MergeTree.leaves] at h
    obtain ⟨a, b, rfl, ha, hb⟩ := List.append_eq_map_iff.mp h
    obtain ⟨l1, l2, l3⟩ := hl a ha.symm
    obtain ⟨r1, r2, r3⟩ := hr b hb.symm
    simp only [MergeTree.eval]
    refine ⟨?_, ?_, ?_⟩
    · rcases min_choice (l.eval fun x y => (min x.1 y.1, max x.2 y.2)).1 (r.eval fun x y => (min x.1 y.1, max x.2 y.2)).1 with e | e <;> rw [e]
      · exact List.mem_append_left _ l1
      · exact List.mem_append_right _ r1
    · rcases max_choice (l.eval fun x y => (min x.1 y.1, max x.2 y.2)).2 (r.eval fun x y => (min x.1 y.1, max x.2 y.2)).2 with e | e <;> rw [e]
      · exact List.mem_append_left _ l2
      · exact List.mem_append_right _ r2
    · intro x hx
      rcases List.mem_append.mp hx with hx | hx
      · exact ⟨le_trans (min_le_left _ _) (l3 x hx).1, le_trans (l3 x hx).2 (le_max_left _ _)⟩
      · exact ⟨le_trans (min_le_right _ _) (r3 x hx).1, le_trans (r3 x hx).2 (le_max_right _ _)⟩

theorem valuesOf_map_val {J A B : Type} [DecidableEq J] (k : J) (f : A → B) (col : List (J × A)) :
    valuesOf k (col.map fun e => (e.1, f e.2)) = (valuesOf k col).map f := by
  unfold valuesOf
  rw [List.filter_map, List.map_map, List.map_map]
  rfl

theorem perm_map_exists {A B : Type} (f : A → B) {l : List B} {xs : List A} (h : l.Perm (xs.map f)) :
    ∃ ys : List A, ys.Perm xs ∧ l = ys.map f := by
  generalize hm : xs.map f = m at h
  induction h generalizing xs with
  | nil => exact ⟨[], by simpa using hm, rfl⟩
  | cons x _ ih =>
    obtain ⟨a, as, rfl, rfl, rfl⟩ := List.map_eq_cons_iff.mp hm
    obtain ⟨ys, h1, h2⟩ := ih rfl
    exact ⟨a :: ys, h1.cons a, by simp [h2]⟩
  | swap x y l =>
    obtain ⟨a, as, rfl, rfl, h2⟩ := List.map_eq_cons_iff.mp hm
    obtain ⟨b, bs, rfl, rfl, rfl⟩ := List.map_eq_cons_iff.mp h2
    exact ⟨b :: a :: bs, List.Perm.swap _ _ _, rfl⟩
  | trans _ _ ih1 ih2 =>
    obtain ⟨ys, h1, h2⟩ := ih2 hm
    obtain ⟨zs, h3, h4⟩ := ih1 h2.symm
    exact ⟨zs, h3.trans h1, h4⟩

/-- Every entry of `min_max_per_key` is the minimum and maximum of the values of the key. -/
theorem minMaxPerKey_spec {J : Type} [DecidableEq J] (O : Ops) (hO : O.Lawful) (col : List (J × ℚ)) :
    ((minMaxPerKey O col).map Prod.fst).Nodup ∧ (∀ k, k ∈ (minMaxPerKey O col).map Prod.fst ↔ k ∈ col.map Prod.fst) ∧
    ∀ e ∈ minMaxPerKey O col, IsMinMax (valuesOf e.1 col) e.2.1 e.2.2 := by
  have hc := hO.reduce (fun x y : ℚ × ℚ => (min x.1 y.1, max x.2 y.2)) (col.map fun e => (e.1, (e.2, e.2)))
  refine ⟨hc.nodup, ?_, ?_⟩
  · intro k
    have := hc.keys k
    rw [List.map_map] at this
    exact this
  · intro e he
    obtain ⟨t, ht, hev⟩ := hc.values e he
    rw [valuesOf_map_val e.1 (fun x : ℚ => (x, x))] at ht
    obtain ⟨ys, hys, hl⟩ := perm_map_exists _ ht
    obtain ⟨h1, h2, h3⟩ := eval_minMax t ys hl
    rw [hev]
    exact ⟨hys.mem_iff.mp h1, hys.mem_iff.mp h2, fun x hx => h3 x (hys.mem_iff.mpr hx)⟩

/-- The indices of the columns are 0, …, m-1. -/
def Contiguous {A : Type} (m : ℕ) (col : List (ℕ × A)) : Prop := ∀ i, i ∈ col.map Prod.fst ↔ i < m

theorem sortByIndex_keys {A : Type} (m : ℕ) (l : List (ℕ × A)) (hn : (l.map Prod.fst).Nodup) (hc : Contiguous m l) :
    (sortByIndex l).map Prod.fst = List.range m := by
  have hp : (sortByIndex l).Perm l := List.perm_insertionSort _ _
  have hs : (sortByIndex l).Pairwise fun a b => a.1 ≤ b.1 := by
    have : Std.Total (fun a b : ℕ × A => a.1 ≤ b.1) := ⟨fun a b => le_total _ _⟩
    have : IsTrans (ℕ × A) (fun a b : ℕ × A => a.1 ≤ b.1) := ⟨fun a b c => le_trans⟩
    exact List.pairwise_insertionSort _ _
  have hnd : ((sortByIndex l).map Prod.fst).Nodup := (hp.map Prod.fst).nodup_iff.mpr hn
  have hlt : ((sortByIndex l).map Prod.fst).Pairwise (· < ·) := by
    have h1 : ((sortByIndex l).map Prod.fst).Pairwise (· ≤ ·) := List.pairwise_map.mpr hs
    exact (h1.and hnd).imp fun h => lt_of_le_of_ne h.1 h.2
  have hperm : ((sortByIndex l).map Prod.fst).Perm (List.range m) := by
    apply perm_of_nodup hnd List.nodup_range
    intro i
    rw [(hp.map Prod.fst).mem_iff, hc i, List.mem_range]
  exact List.Perm.eq_of_pairwise (le := fun x y : ℕ => x < y)
    (fun x y _ _ h1 h2 => absurd h1 (Nat.lt_asymm h2)) hlt List.pairwise_lt_range hperm

/-- In the sorted list the entry at position `i` is the one with key `i`. -/
theorem sortByIndex_get {A : Type} (m : ℕ) (l : List (ℕ × A)) (hn : (l.map Prod.fst).Nodup) (hc : Contiguous m l)
    (e : ℕ × A) (he : e ∈ l) : (sortByIndex l)[e.1]? = some e := by
  have hk := sortByIndex_keys m l hn hc
  have hp : (sortByIndex l).Perm l := List.perm_insertionSort _ _
  have hlt : e.1 < m := (hc e.1).mp (List.mem_map.mpr ⟨e, he, rfl⟩)
  have hlen : (sortByIndex l).length = m := by
    have := congrArg List.length hk
    simpa using this
  have h1 : (sortByIndex l)[e.1]? = some ((sortByIndex l)[e.1]'(by omega)) := List.getElem?_eq_getElem _
  have h2 : ((sortByIndex l)[e.1]'(by omega)).1 = e.1 := by
    have : ((sortByIndex l).map Prod.fst)[e.1]? = (List.range m)[e.1]? := by rw [hk]
    rw [List.getElem?_map, h1, List.getElem?_range hlt] at this
    simpa using this
  rw [h1]
  have h3 : (sortByIndex l)[e.1]'(by omega) ∈ l := hp.mem_iff.mp (List.getElem_mem _)
  rw [List.inj_on_of_nodup_map hn h3 he h2]

theorem mapM_ok {A B : Type} (f : A → Except Err B) (g : A → B) (l : List A) (h : ∀ a ∈ l, f a = .ok (g a)) :
    l.mapM f = .ok (l.map g) := by
  induction l with
  | nil => rfl
  | cons a l ih =>
    rw [List.mapM_cons, h a List.mem_cons_self, ih fun b hb => h b (List.mem_cons_of_mem _ hb)]
    rfl

theorem expand_ones {α : Type} (xs : List α) : expand (xs.map fun x => (x, 1)) = xs := by
  induction xs with
  | nil => rfl
  | cons x xs ih =>
    have : expand ((x, 1) :: xs.map fun x => (x, 1)) = x :: expand (xs.map fun x => (x, 1)) := by simp [expand]
    rw [List.map_cons, this, ih]

/-- The histogram of a list of values: as many equal buckets as asked for between the least and greatest value. -/
def IsSumHistogram (n : ℕ) (xs : List ℚ) (bins : List Bin) : Prop :=
  ∃ lo hi, IsMinMax xs lo hi ∧ IsHistogram (fun x : ℚ => x) (mkGenerator lo hi n).lowerUpper xs bins

theorem IsSumHistogram.unique {n : ℕ} {xs ys : List ℚ} {a b : List Bin} (hp : xs.Perm ys) (ha : IsSumHistogram n xs a)
    (hb : IsSumHistogram n ys b) : a = b := by
  obtain ⟨lo, hi, hm, h⟩ := ha
  obtain ⟨lo', hi', hm', h'⟩ := hb
  have hm2 : IsMinMax ys lo hi := ⟨hp.mem_iff.mp hm.1, hp.mem_iff.mp hm.2.1, fun x hx => hm.2.2 x (hp.mem_iff.mpr hx)⟩
  obtain ⟨rfl, rfl⟩ := hm2.unique hm'
  exact (h.perm hp).unique h'

/-- **C52.** With columns 0, …, m-1, on any lawful backend: the computation succeeds and returns one histogram per
column, in the order of the columns, and each is the histogram of the values of its column. -/
theorem C52_sum_histograms (O : Ops) (hO : O.Lawful) (n m : ℕ) (col : List (ℕ × ℚ)) (hc : Contiguous m col) :
    ∃ out, sumHistograms O n col = .ok out ∧ out.map Prod.fst = List.range m ∧
      ∀ e ∈ out, IsSumHistogram n (valuesOf e.1 col) e.2 := by
  obtain ⟨mmn, mmk, mmv⟩ := minMaxPerKey_spec O hO col
  have hmmc : Contiguous m (minMaxPerKey O col) := fun i => by rw [mmk, hc]
  -- the generator of a column
  have hgen : ∀ e ∈ minMaxPerKey O col, (generators O n col)[e.1]? = some (mkGenerator e.2.1 e.2.2 n) := by
    intro e he
    unfold generators
    rw [List.getElem?_map, sortByIndex_get m _ mmn hmmc e he]
    rfl
  set mm : ℕ → ℚ × ℚ := fun i => (((minMaxPerKey O col).find? fun e => e.1 = i).map Prod.snd).getD (0, 0) with hmm
  have hmmEq : ∀ e ∈ minMaxPerKey O col, mm e.1 = e.2 := by
    intro e he
    cases hf : (minMaxPerKey O col).find? fun x => decide (x.1 = e.1) with
    | none =>
      have := List.find?_eq_none.mp hf e he
      simp at this
    | some x =>
      have hx : x ∈ minMaxPerKey O col := List.mem_of_find?_eq_some hf
      have hx1 : x.1 = e.1 := by simpa using List.find?_some hf
      have : x = e := List.inj_on_of_nodup_map mmn hx he hx1
      simp [hmm, hf, this]
  set bd : ℕ → ℚ → ℚ × ℚ := fun i => (mkGenerator (mm i).1 (mm i).2 n).lowerUpper with hbd
  set item : ℕ × ℚ → (ℕ × ℚ) × Bin := fun e => ((e.1, (bd e.1 e.2).1), ⟨(bd e.1 e.2).1, (bd e.1 e.2).2, 1, e.2, e.2, e.2⟩) with hitem
  have hbin : ∀ e ∈ col, toSumBin (generators O n col) e = .ok (item e) := by
    intro e he
    obtain ⟨x, hx, hxe⟩ := List.mem_map.mp ((mmk e.1).mpr (List.mem_map.mpr ⟨e, he, rfl⟩))
    unfold toSumBin
    rw [← hxe, hgen x hx]
    simp only
    rw [← hmmEq x hx, hxe]
  have hred := hO.reduce Bin.add (col.map item)
  have hgrp := hO.group ((O.reducePerKey Bin.add (col.map item)).map fun e => (e.1.1, e.2))
  set red := O.reducePerKey Bin.add (col.map item) with hreddef
  set grp := O.group (red.map fun e => (e.1.1, e.2)) with hgrpdef
  refine ⟨sortByIndex (grp.map fun e => (e.1, sortBins e.2)), ?_, ?_, ?_⟩
  · unfold sumHistograms
    rw [mapM_ok _ item col hbin]
    rfl
  · apply sortByIndex_keys
    · rw [List.map_map]; exact hgrp.nodup
    · intro i
      rw [List.map_map]
      have h1 : i ∈ grp.map (Prod.fst ∘ fun e => (e.1, sortBins e.2)) ↔ i ∈ grp.map Prod.fst := Iff.rfl
      rw [h1, hgrp.keys, List.map_map, ← hc i]
      constructor
      · intro h
        obtain ⟨r, hr, rfl⟩ := List.mem_map.mp h
        have := (hred.keys r.1).mp (List.mem_map.mpr ⟨r, hr, rfl⟩)
        rw [List.map_map] at this
        obtain ⟨e, he, hee⟩ := List.mem_map.mp this
        refine List.mem_map.mpr ⟨e, he, ?_⟩
        show e.1 = r.1.1
        rw [← hee]; rfl
      · intro h
        obtain ⟨e, he, rfl⟩ := List.mem_map.mp h
        obtain ⟨r, hr, hre⟩ := List.mem_map.mp ((hred.keys (item e).1).mpr (by
          rw [List.map_map]; exact List.mem_map.mpr ⟨e, he, rfl⟩))
        exact List.mem_map.mpr ⟨r, hr, by show r.1.1 = e.1; rw [hre]⟩
  · intro e he
    have hp : (sortByIndex (grp.map fun e => (e.1, sortBins e.2))).Perm (grp.map fun e => (e.1, sortBins e.2)) :=
      List.perm_insertionSort _ _
    obtain ⟨g, hg, rfl⟩ := List.mem_map.mp (hp.mem_iff.mp he)
    simp only
    -- the column occurs in the data
    have hcol : g.1 ∈ col.map Prod.fst := by
      have h1 := (hgrp.keys g.1).mp (List.mem_map.mpr ⟨g, hg, rfl⟩)
      rw [List.map_map] at h1
      obtain ⟨r, hr, hrg⟩ := List.mem_map.mp h1
      have := (hred.keys r.1).mp (List.mem_map.mpr ⟨r, hr, rfl⟩)
      rw [List.map_map] at this
      obtain ⟨c, hc', hcc⟩ := List.mem_map.mp this
      refine List.mem_map.mpr ⟨c, hc', ?_⟩
      have h3 : r.1.1 = g.1 := hrg
      rw [← h3, ← hcc]; rfl
    obtain ⟨x, hx, hxg⟩ := List.mem_map.mp ((mmk g.1).mpr hcol)
    have hmmg : mm g.1 = x.2 := by rw [← hxg]; exact hmmEq x hx
    refine ⟨(mm g.1).1, (mm g.1).2, ?_, ?_⟩
    · rw [hmmg, ← hxg]; exact mmv x hx
    · -- entries of the group as a reduction keyed by the lower end
      have hperm := hgrp.values g hg
      set mine := red.filter fun r => r.1.1 = g.1 with hmine
      have hvals : valuesOf g.1 (red.map fun e => (e.1.1, e.2)) = mine.map Prod.snd := by
        unfold valuesOf
        rw [List.filter_map, List.map_map]; rfl
      rw [hvals] at hperm
      obtain ⟨ord, hord, hg2⟩ := perm_map_exists _ hperm
      set out := ord.map fun r => (r.1.2, r.2) with hout
      have hout2 : out.map Prod.snd = g.2 := by rw [hout, List.map_map, hg2]; rfl
      set items := (valuesOf g.1 col).map fun v => (v, 1) with hitems
      have hvalOf : ∀ l, valuesOf (g.1, l) (col.map item)
          = valuesOf l (items.map (itemBin (fun x : ℚ => x) (bd g.1))) := by
        intro l
        rw [valuesOf_items, hitems]
        unfold valuesOf
        rw [List.filter_map, List.map_map, List.filter_map, List.map_map, List.filter_map, List.map_map,
          List.filter_filter]
        have : (col.filter ((fun e => decide (e.1 = (g.1, l))) ∘ item))
            = col.filter fun a => ((fun e => decide ((bd g.1 e.1).1 = l)) ∘ fun v : ℚ => (v, 1)) (Prod.snd a) && decide (a.1 = g.1) := by
          apply List.filter_congr
          intro a _
          rw [Bool.eq_iff_iff]
          simp only [Function.comp, decide_eq_true_eq, hitem, Prod.mk.injEq, Bool.and_eq_true]
          constructor
          · rintro ⟨h1, h2⟩; rw [h1] at h2; exact ⟨h2, h1⟩
          · rintro ⟨h1, h2⟩; rw [h2]; exact ⟨rfl, h1⟩
        rw [this]
        apply List.map_congr_left
        intro a ha
        have ha1 : a.1 = g.1 := by
          have := (List.mem_filter.mp ha).2
          simp only [Bool.and_eq_true, decide_eq_true_eq] at this
          exact this.2
        simp only [Function.comp, itemBin, hitem, ha1]
        simp
      have hcomb : IsCombine Bin.add (items.map (itemBin (fun x : ℚ => x) (bd g.1))) out := by
        have hmineN : (mine.map Prod.fst).Nodup := by
          have : (mine.map Prod.fst).Sublist (red.map Prod.fst) := List.Sublist.map _ List.filter_sublist
          exact hred.nodup.sublist this
        have hord1 : ∀ r ∈ ord, r ∈ red ∧ r.1.1 = g.1 := by
          intro r hr
          have := List.mem_filter.mp (hord.mem_iff.mp hr)
          exact ⟨this.1, by simpa using this.2⟩
        refine ⟨?_, ?_, ?_⟩
        · rw [hout, List.map_map]
          have hn1 : (ord.map Prod.fst).Nodup := (hord.map Prod.fst).nodup_iff.mpr hmineN
          refine List.Nodup.map_on ?_ hn1.of_map
          intro a ha b hb hab
          refine List.inj_on_of_nodup_map hn1 ha hb ?_
          exact Prod.ext (by rw [(hord1 a ha).2, (hord1 b hb).2]) hab
        · intro l
          have h1 : l ∈ out.map Prod.fst ↔ (g.1, l) ∈ red.map Prod.fst := by
            rw [hout, List.map_map]
            simp only [List.mem_map, Function.comp]
            constructor
            · rintro ⟨r, hr, rfl⟩
              exact ⟨r, (hord1 r hr).1, Prod.ext (hord1 r hr).2 rfl⟩
            · rintro ⟨r, hr, hre⟩
              refine ⟨r, hord.mem_iff.mpr (List.mem_filter.mpr ⟨hr, by simp [hre]⟩), by rw [hre]⟩
          rw [h1, hred.keys, ← valuesOf_ne_nil, hvalOf l, valuesOf_ne_nil]
        · intro o ho
          obtain ⟨r, hr, rfl⟩ := List.mem_map.mp ho
          obtain ⟨t, ht1, ht2⟩ := hred.values r (hord1 r hr).1
          refine ⟨t, ?_, ht2⟩
          have : r.1 = (g.1, r.1.2) := Prod.ext (hord1 r hr).2 rfl
          rw [this, hvalOf] at ht1
          exact ht1
      have hfin := sortBins_spec (fun x : ℚ => x) (bd g.1) (fun a b h => lowerUpper_upper _ _ _ a b h) items
        (by intro e he; obtain ⟨v, -, rfl⟩ := List.mem_map.mp he; simp) out hcomb
      rw [hout2, hitems, expand_ones] at hfin
      exact hfin

/-- **C52.** Counts and sums of a sum histogram add up to the number and sum of its values; every bin of it is one
of the `n` equal buckets between the least and the greatest value. -/
theorem C52_totals (n : ℕ) (hn : 0 < n) (xs : List ℚ) (bins : List Bin) (h : IsSumHistogram n xs bins) :
    totalCount bins = xs.length ∧ totalSum bins = xs.sum ∧
    ∀ b ∈ bins, b.lower ≤ b.min ∧ b.min ≤ b.max ∧ b.max ≤ b.upper := by
  obtain ⟨lo, hi, hm, h⟩ := h
  refine ⟨?_, ?_, ?_⟩
  · have h1 := h.sum_bins (fun _ => (1 : ℚ))
    have h2 : ((totalCount bins : ℕ) : ℚ)
        = (bins.map fun b => ((inBin (mkGenerator lo hi n).lowerUpper b.lower xs).map fun _ => (1 : ℚ)).sum).sum := by
      unfold totalCount
      rw [Nat.cast_list_sum, List.map_map]
      congr 1
      apply List.map_congr_left
      intro b hb
      simp [h.count b hb]
    rw [h1] at h2
    simp only [List.map_const', List.sum_replicate, nsmul_eq_mul, mul_one] at h2
    exact_mod_cast h2
  · have h1 := h.sum_bins (fun x : ℚ => x)
    rw [List.map_id'] at h1
    unfold totalSum
    rw [← h1]
    congr 1
    apply List.map_congr_left
    intro b hb
    exact h.sum b hb
  · intro b hb
    obtain ⟨⟨y, hy, hye⟩, hmin⟩ := h.min b hb
    obtain ⟨⟨z, hz, hze⟩, hmax⟩ := h.max b hb
    have memx : ∀ w ∈ inBin (mkGenerator lo hi n).lowerUpper b.lower xs, w ∈ xs ∧ ((mkGenerator lo hi n).lowerUpper w).1 = b.lower := by
      intro w hw
      have := List.mem_filter.mp hw
      exact ⟨this.1, by simpa using this.2⟩
    have hy' := memx y hy
    have hz' := memx z hz
    refine ⟨?_, ?_, ?_⟩
    · have := C52_bucket_contains_value lo hi y n hn (hm.2.2 y hy'.1).1 (hm.2.2 y hy'.1).2
      rw [← hye, ← hy'.2]; exact this.2.1
    · rw [← hze]; exact hmin z hz
    · have := C52_bucket_contains_value lo hi z n hn (hm.2.2 z hz'.1).1 (hm.2.2 z hz'.1).2
      rw [← hze, h.upper b hb z hz]
      rcases this.2.2 with h5 | h5
      · exact h5.le
      · rw [h5.2.1]; exact h5.1.le

/-- **C52.** The flattened columns have indices 0, …, m-1 where m is the largest number of values in a row, even
when rows have different numbers of values: the lookup of the bucket generator by position is right. -/
theorem C52_flat_values_contiguous {J : Type} (col : List (J × List ℚ)) :
    Contiguous ((col.map fun e => e.2.length).foldr max 0) ((flatValues col).map fun e => (e.1.1, e.2)) := by
  intro i
  rw [List.map_map]
  unfold flatValues
  induction col with
  | nil => simp
  | cons e col ih =>
    rw [List.flatMap_cons, List.map_append, List.mem_append, ih, List.map_cons, List.foldr_cons, lt_max_iff]
    have : i ∈ (e.2.zipIdx.map fun v => ((v.2, e.1), v.1)).map (Prod.fst ∘ fun e : (ℕ × J) × ℚ => (e.1.1, e.2)) ↔ i < e.2.length := by
      rw [List.map_map]
      simp only [List.mem_map, Function.comp]
      constructor
      · rintro ⟨⟨v, j⟩, hv, rfl⟩
        exact (List.mem_zipIdx' hv).1
      · intro hi
        exact ⟨(e.2[i], i), by rw [List.mem_zipIdx_iff_getElem?]; simp [hi], rfl⟩
    rw [this]

theorem C52_contiguous_after_sum {J : Type} [DecidableEq J] (O : Ops) (hO : O.Lawful) (m : ℕ) (col : List ((ℕ × J) × ℚ))
    (h : Contiguous m (col.map fun e => (e.1.1, e.2))) :
    Contiguous m ((O.sumPerKey col).map fun e => (e.1.1, e.2)) := by
  intro i
  rw [← h i, List.map_map, List.map_map]
  simp only [List.mem_map, Function.comp]
  constructor
  · rintro ⟨e, he, rfl⟩
    obtain ⟨c, hc, hce⟩ := List.mem_map.mp (((hO.sum col).keys e.1).mp (List.mem_map.mpr ⟨e, he, rfl⟩))
    exact ⟨c, hc, by rw [hce]⟩
  · rintro ⟨c, hc, rfl⟩
    obtain ⟨e, he, hec⟩ := List.mem_map.mp (((hO.sum col).keys c.1).mpr (List.mem_map.mpr ⟨c, hc, rfl⟩))
    exact ⟨e, he, by rw [hec]⟩

/-- **C52.** The sum histograms of a dataset with several value columns never fail, and there is one per column. -/
theorem C52_dataset_sum_histograms (O : Ops) (hO : O.Lawful) (n : ℕ) (rows : List (P × K × List ℚ)) :
    (∃ out, linfSumHistograms O n rows = .ok out ∧ out.map Prod.fst = List.range ((rows.map fun r => r.2.2.length).foldr max 0)) ∧
    (∃ out, partitionSumHistograms O n rows = .ok out ∧ out.map Prod.fst = List.range ((rows.map fun r => r.2.2.length).foldr max 0)) := by
  constructor
  · have h1 := C52_flat_values_contiguous (rows.map fun r => ((r.1, r.2.1), r.2.2))
    rw [List.map_map] at h1
    obtain ⟨out, ho, hk, -⟩ := C52_sum_histograms O hO n _ _ (C52_contiguous_after_sum O hO _ _ h1)
    exact ⟨out, ho, hk⟩
  · have h1 := C52_flat_values_contiguous (rows.map fun r => (r.2.1, r.2.2))
    rw [List.map_map] at h1
    obtain ⟨out, ho, hk, -⟩ := C52_sum_histograms O hO n _ _ (C52_contiguous_after_sum O hO _ _ h1)
    exact ⟨out, ho, hk⟩

/-! ### C36 for sum histograms -/

theorem ext_of_keys {A : Type} {a b : List (ℕ × A)} (hk : a.map Prod.fst = b.map Prod.fst) (hn : (a.map Prod.fst).Nodup)
    (h : ∀ x ∈ a, ∀ y ∈ b, x.1 = y.1 → x.2 = y.2) : a = b := by
  induction a generalizing b with
  | nil => cases b with
    | nil => rfl
    | cons y b => simp at hk
  | cons x a ih =>
    cases b with
    | nil => simp at hk
    | cons y b =>
      simp only [List.map_cons, List.cons.injEq] at hk
      rw [List.map_cons, List.nodup_cons] at hn
      rw [ih hk.2 hn.2 fun u hu v hv => h u (List.mem_cons_of_mem _ hu) v (List.mem_cons_of_mem _ hv),
        Prod.ext hk.1 (h x List.mem_cons_self y List.mem_cons_self hk.1)]

/-- **C52.** Sum histograms do not depend on the backend or the order of the rows. -/
theorem C52_independent_of_backend (O O' : Ops) (hO : O.Lawful) (hO' : O'.Lawful) (n m : ℕ) (col col' : List (ℕ × ℚ))
    (hp : col.Perm col') (hc : Contiguous m col) : sumHistograms O n col = sumHistograms O' n col' := by
  have hc' : Contiguous m col' := fun i => by rw [← (hp.map Prod.fst).mem_iff, hc i]
  obtain ⟨a, ha, hak, hav⟩ := C52_sum_histograms O hO n m col hc
  obtain ⟨b, hb, hbk, hbv⟩ := C52_sum_histograms O' hO' n m col' hc'
  rw [ha, hb]
  congr 1
  refine ext_of_keys (by rw [hak, hbk]) (by rw [hak]; exact List.nodup_range) ?_
  intro x hx y hy hxy
  refine (hav x hx).unique ?_ (hbv y hy)
  rw [hxy]
  exact valuesOf_perm hp

theorem flatValues_single {A J : Type} (k : A → J) (v : A → ℚ) (l : List A) :
    flatValues (l.map fun a => (k a, [v a])) = l.map fun a => ((0, k a), v a) := by
  induction l with
  | nil => rfl
  | cons a l ih =>
    unfold flatValues at ih ⊢
    rw [List.map_cons, List.flatMap_cons, ih]
    rfl

theorem contiguous_single {A : Type} (v : A → ℚ) (l : List A) (hne : l ≠ []) :
    Contiguous 1 (l.map fun a => ((0 : ℕ), v a)) := by
  intro i
  obtain ⟨a, l, rfl⟩ := List.exists_cons_of_ne_nil hne
  simp only [List.map_map, List.mem_map, Function.comp, Nat.lt_one_iff]
  constructor
  · rintro ⟨_, -, rfl⟩; rfl
  · rintro rfl; exact ⟨a, List.mem_cons_self, rfl⟩

/-- Sum of the values of a partition. -/
def sumOfPartition (rows : List (P × K × ℚ)) (k : K) : ℚ := ((rows.filter fun r => r.2.1 = k).map fun r => r.2.2).sum

/-- The values of a partition are split among its pairs. -/
theorem sum_of_pairs (rows : List (P × K × ℚ)) (k : K) :
    (((allPairs rows).filter fun pk => pk.2 = k).map (sumOfPair rows)).sum = sumOfPartition rows k := by
  have key : ∀ (pairs : List (P × K)) (rs : List (P × K × ℚ)), pairs.Nodup → (∀ r ∈ rs, (r.1, r.2.1) ∈ pairs) →
      ((pairs.filter fun pk => pk.2 = k).map (sumOfPair rs)).sum = sumOfPartition rs k := by
    intro pairs rs hn
    induction rs with
    | nil =>
      intro _
      apply List.sum_eq_zero
      intro x hx
      obtain ⟨pk, -, rfl⟩ := List.mem_map.mp hx
      rfl
    | cons r rs ih =>
      intro hmem
      have ih' := ih fun q hq => hmem q (List.mem_cons_of_mem _ hq)
      have hr := hmem r List.mem_cons_self
      have h1 : ∀ pk : P × K, sumOfPair (r :: rs) pk = (if pk = (r.1, r.2.1) then r.2.2 else 0) + sumOfPair rs pk := by
        intro pk
        unfold sumOfPair
        rw [List.filter_cons]
        by_cases h : r.1 = pk.1 ∧ r.2.1 = pk.2
        · have : pk = (r.1, r.2.1) := Prod.ext h.1.symm h.2.symm
          rw [if_pos this, if_pos (by simpa using h), List.map_cons, List.sum_cons]
        · have : ¬ pk = (r.1, r.2.1) := fun hh => h (by rw [hh]; exact ⟨rfl, rfl⟩)
          rw [if_neg this, if_neg (by simpa using h), zero_add]
      have h1' : sumOfPair (r :: rs) = fun pk => (if pk = (r.1, r.2.1) then r.2.2 else 0) + sumOfPair rs pk := funext h1
      rw [h1', List.sum_map_add, ih']
      have h2 : sumOfPartition (r :: rs) k = (if r.2.1 = k then r.2.2 else 0) + sumOfPartition rs k := by
        unfold sumOfPartition
        rw [List.filter_cons]
        by_cases h : r.2.1 = k <;> simp [h]
      rw [h2]
      congr 1
      have h3 : ∀ l : List (P × K), (l.map fun pk => if pk = (r.1, r.2.1) then r.2.2 else 0).sum
          = ((l.count (r.1, r.2.1) : ℕ) : ℚ) * r.2.2 := by
        intro l
        induction l with
        | nil => simp
        | cons x l ih3 =>
          rw [List.map_cons, List.sum_cons, ih3, List.count_cons]
          by_cases h : x = (r.1, r.2.1)
          · rw [if_pos h, h]; simp; ring
          · simp [h]
      rw [h3]
      by_cases h : r.2.1 = k
      · rw [if_pos h, List.count_eq_one_of_mem (hn.filter _) (List.mem_filter.mpr ⟨hr, by simpa using h⟩)]
        simp
      · rw [if_neg h, List.count_eq_zero_of_not_mem]
        · simp
        · intro hm
          exact h (by simpa using (List.mem_filter.mp hm).2)
  exact key (allPairs rows) rows (List.nodup_dedup _) fun r hr => List.mem_dedup.mpr (List.mem_map.mpr ⟨r, hr, rfl⟩)

/-- Sums keyed by a function of the items. -/
theorem sumPerKey_perm {A J : Type} [DecidableEq J] (O : Ops) (hO : O.Lawful) (l : List A) (key : A → J) (v : A → ℚ)
    (keys : List J) (hn : keys.Nodup) (hk : ∀ j, j ∈ keys ↔ j ∈ l.map key) (f : J → ℚ)
    (hf : ∀ j ∈ keys, ((l.filter fun a => key a = j).map v).sum = f j) :
    (O.sumPerKey (l.map fun a => (((0 : ℕ), key a), v a))).Perm (keys.map fun j => ((0, j), f j)) := by
  have hs := hO.sum (l.map fun a => (((0 : ℕ), key a), v a))
  refine perm_of_keys hs.nodup ?_ ?_ (fun k => f k.2) ?_ ?_
  · rw [List.map_map]
    refine List.Nodup.map_on ?_ hn
    intro a _ b _ hab
    simpa using hab
  · intro ⟨i, j⟩
    rw [hs.keys, List.map_map, List.map_map]
    simp only [List.mem_map, Function.comp, Prod.mk.injEq]
    constructor
    · rintro ⟨a, ha, rfl, rfl⟩; exact ⟨key a, (hk _).mpr (List.mem_map.mpr ⟨a, ha, rfl⟩), rfl, rfl⟩
    · rintro ⟨j', hj, rfl, rfl⟩
      obtain ⟨a, ha, rfl⟩ := List.mem_map.mp ((hk _).mp hj)
      exact ⟨a, ha, rfl, rfl⟩
  · intro e he
    obtain ⟨x, hx, hxe⟩ := List.mem_map.mp ((hs.keys e.1).mp (List.mem_map.mpr ⟨e, he, rfl⟩))
    obtain ⟨a, ha, rfl⟩ := List.mem_map.mp hx
    have hxe' : e.1 = (0, key a) := hxe.symm
    rw [hs.values e he, hxe', ← hf (key a) ((hk _).mpr (List.mem_map.mpr ⟨a, ha, rfl⟩))]
    unfold valuesOf
    rw [List.filter_map, List.map_map]
    congr 2
    apply List.filter_congr
    intro b _
    rw [Bool.eq_iff_iff]
    simp
  · intro e he
    obtain ⟨j, -, rfl⟩ := List.mem_map.mp he
    rfl

/-- **C36.** The sum histograms of the pre-aggregated data equal those of the raw data (one value column): per
(id, partition) and per partition, on any backends. -/
theorem C36_sum_histograms (O O' O'' : Ops) (hO : O.Lawful) (hO' : O'.Lawful) (hO'' : O''.Lawful) (n : ℕ)
    (rows : List (P × K × ℚ)) (hne : rows ≠ []) :
    preLinfSumHistograms O n (preaggregate O' (fun _ => true) rows)
      = linfSumHistograms O'' n (rows.map fun r => (r.1, r.2.1, [r.2.2])) ∧
    prePartitionSumHistograms O n (preaggregate O' (fun _ => true) rows)
      = partitionSumHistograms O'' n (rows.map fun r => (r.1, r.2.1, [r.2.2])) := by
  have hp := preaggregate_perm O' hO' rows (fun _ => true)
  rw [List.filter_true] at hp
  set pre := preaggregate O' (fun _ => true) rows with hpre
  have hpairs : allPairs rows ≠ [] := by
    obtain ⟨r, rs, rfl⟩ := List.exists_cons_of_ne_nil hne
    exact List.ne_nil_of_mem (List.mem_dedup.mpr (List.mem_map.mpr ⟨r, List.mem_cons_self, rfl⟩))
  have hparts : allPartitions rows ≠ [] := by
    obtain ⟨r, rs, rfl⟩ := List.exists_cons_of_ne_nil hne
    exact List.ne_nil_of_mem (List.mem_dedup.mpr (List.mem_map.mpr ⟨r, List.mem_cons_self, rfl⟩))
  constructor
  · unfold preLinfSumHistograms linfSumHistograms
    rw [flatValues_single, List.map_map, List.map_map]
    have e1 : (fun r : P × K × List ℚ => ((r.1, r.2.1), r.2.2)) ∘ (fun r : P × K × ℚ => (r.1, r.2.1, [r.2.2]))
        = fun r => ((r.1, r.2.1), [r.2.2]) := rfl
    rw [e1, flatValues_single (fun r : P × K × ℚ => (r.1, r.2.1)) (fun r => r.2.2)]
    have h1 : (pre.map ((fun e : (ℕ × Unit) × ℚ => (e.1.1, e.2)) ∘ fun a => ((0, ()), a.2.sum))).Perm
        ((allPairs rows).map fun pk => ((0 : ℕ), sumOfPair rows pk)) := by
      have := hp.map fun a => ((0 : ℕ), a.2.sum)
      rw [List.map_map] at this
      exact this
    have h2 := sumPerKey_perm O'' hO'' rows (fun r => (r.1, r.2.1)) (fun r => r.2.2) (allPairs rows) (List.nodup_dedup _)
      (fun j => List.mem_dedup) (sumOfPair rows) (by
        intro j _
        unfold sumOfPair
        congr 2
        apply List.filter_congr
        intro r _
        rw [Bool.eq_iff_iff]
        simp [Prod.ext_iff])
    have h3 := h2.map fun e => (e.1.1, e.2)
    rw [List.map_map] at h3
    refine C52_independent_of_backend O O'' hO hO'' n 1 _ _ (h1.trans h3.symm) ?_
    intro i
    rw [(h1.map Prod.fst).mem_iff]
    exact contiguous_single (sumOfPair rows) _ hpairs i
  · unfold prePartitionSumHistograms partitionSumHistograms
    rw [flatValues_single, List.map_map]
    have e1 : (fun r : P × K × List ℚ => (r.2.1, r.2.2)) ∘ (fun r : P × K × ℚ => (r.1, r.2.1, [r.2.2]))
        = fun r => (r.2.1, [r.2.2]) := rfl
    rw [e1, flatValues_single (fun r : P × K × ℚ => r.2.1) (fun r => r.2.2)]
    have h1 := sumPerKey_perm O hO pre (fun e => e.1) (fun e => e.2.sum) (allPartitions rows) (List.nodup_dedup _)
      (by
        intro j
        rw [(hp.map fun e => e.1).mem_iff, List.map_map]
        simp only [List.mem_map, Function.comp, allPairs, allPartitions, List.mem_dedup]
        constructor
        · rintro ⟨r, hr, rfl⟩; exact ⟨_, ⟨r, hr, rfl⟩, rfl⟩
        · rintro ⟨pk, ⟨r, hr, rfl⟩, rfl⟩; exact ⟨r, hr, rfl⟩)
      (sumOfPartition rows) (by
        intro j _
        rw [((hp.filter fun a => decide (a.1 = j)).map fun e => e.2.sum).sum_eq, List.filter_map, List.map_map]
        exact sum_of_pairs rows j)
    have h2 := sumPerKey_perm O'' hO'' rows (fun r => r.2.1) (fun r => r.2.2) (allPartitions rows) (List.nodup_dedup _)
      (fun j => List.mem_dedup) (sumOfPartition rows) (fun j _ => rfl)
    have h3 := (h1.trans h2.symm).map fun e : (ℕ × K) × ℚ => (e.1.1, e.2)
    refine C52_independent_of_backend O O'' hO hO'' n 1 _ _ h3 ?_
    intro i
    have h4 := (h1.map fun e : (ℕ × K) × ℚ => (e.1.1, e.2)).map Prod.fst
    rw [h4.mem_iff, List.map_map (l := allPartitions rows)]
    exact contiguous_single (sumOfPartition rows) _ hparts i

/-- Three values in four buckets on [1, 9]. -/
example : (mkGenerator 1 9 4).lowerUpper 1 = (1, 3) ∧ (mkGenerator 1 9 4).lowerUpper 5 = (5, 7) ∧
    (mkGenerator 1 9 4).lowerUpper 9 = (7, 9) ∧ (mkGenerator 2 2 4).lowerUpper 2 = (2, 2) := by decide +kernel

example : sumHistograms localOps 4 [(0, 1), (1, -2), (0, 9), (0, 4), (1, 6)]
    = .ok [(0, [⟨1, 3, 1, 1, 1, 1⟩, ⟨3, 5, 1, 4, 4, 4⟩, ⟨7, 9, 1, 9, 9, 9⟩]),
           (1, [⟨-2, 0, 1, -2, -2, -2⟩, ⟨4, 6, 1, 6, 6, 6⟩])] := by decide +kernel

example : Contiguous 2 ([(0, 1), (1, -2), (0, 9), (0, 4), (1, 6)] : List (ℕ × ℚ)) := by
  intro i; simp; omega

end PDP.Histogram
