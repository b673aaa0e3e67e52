import Verif.Histogram.Lemmas
import Mathlib.Tactic.Tauto

/-! # Property C33: count histograms -/

set_option linter.unusedSectionVars false

namespace PDP.Histogram

open PDP.Engine (MergeTree)

/-! ### C33 -/

/-- **C33.** For every list of integers, whatever the order in which the backend reduces, the frequency
histogram has one bin per occupied range, sorted by lower end, with exactly the number, sum, maximum and
minimum of the values in that range; counts and sums of all bins add up to those of the values. -/
theorem C33_frequency_histogram (O : Ops) (hO : O.Lawful) (xs : List ℕ) :
    IsCountHistogram xs (frequencyHistogram O xs) ∧ totalCount (frequencyHistogram O xs) = xs.length ∧
    totalSum (frequencyHistogram O xs) = ((xs.sum : ℕ) : ℚ) := by
  have h := frequencyHistogram_spec O hO xs
  refine ⟨h, ?_, ?_⟩
  · have h1 := h.sum_bins (fun _ => (1 : ℚ))
    have h2 : ((totalCount (frequencyHistogram O xs) : ℕ) : ℚ)
        = ((frequencyHistogram O xs).map fun b => ((inBin intBounds b.lower xs).map fun _ => (1 : ℚ)).sum).sum := by
      unfold totalCount
      rw [Nat.cast_list_sum, List.map_map]
      congr 1
      apply List.map_congr_left
      intro b hb
      simp [h.count b hb]
    rw [h1] at h2
    simp only [List.map_const', List.sum_replicate, nsmul_eq_mul, mul_one] at h2
    exact_mod_cast h2
  · have h1 := h.sum_bins (fun n : ℕ => (n : ℚ))
    unfold totalSum
    rw [Nat.cast_list_sum, ← h1]
    congr 1
    apply List.map_congr_left
    intro b hb
    exact h.sum b hb

/-- **C33.** The histogram depends only on the multiset of values, not on the backend or the order of rows. -/
theorem C33_independent_of_backend (O O' : Ops) (hO : O.Lawful) (hO' : O'.Lawful) (xs ys : List ℕ) (h : xs.Perm ys) :
    frequencyHistogram O xs = frequencyHistogram O' ys :=
  ((frequencyHistogram_spec O hO xs).perm h).unique (frequencyHistogram_spec O' hO' ys)

/-- `FrequencyBin._check_same_bin` holds at every addition when a tree of bins is reduced. -/
def AssertionsHold : MergeTree Bin → Prop
  | .leaf _ => True
  | .node l r => AssertionsHold l ∧ AssertionsHold r ∧ (l.eval Bin.add).lower = (r.eval Bin.add).lower ∧
      (l.eval Bin.add).upper = (r.eval Bin.add).upper

/-- **C33.** Adding bins never fails its assertion: in any order of reduction of bins with the same key, the
two bins that are added have the same ends. -/
theorem C33_additions_are_of_equal_bins (t : MergeTree Bin) (k : ℚ)
    (h : ∀ b ∈ t.leaves, ∃ e : ℕ × ℕ, toFrequencyBin e = (k, b)) : AssertionsHold t := by
  have same : ∀ b ∈ t.leaves, ∀ c ∈ t.leaves, b.lower = c.lower ∧ b.upper = c.upper := by
    intro b hb c hc
    obtain ⟨e, he⟩ := h b hb
    obtain ⟨f, hf⟩ := h c hc
    rw [toFrequencyBin_eq] at he hf
    simp only [itemBin, Prod.mk.injEq] at he hf
    obtain ⟨e1, rfl⟩ := he
    obtain ⟨f1, rfl⟩ := hf
    exact ⟨by simp only; rw [e1, f1], intBounds_upper _ _ (by rw [e1, f1])⟩
  clear h
  induction t with
  | leaf b => trivial
  | node l r hl hr =>
    have hl' := hl fun b hb c hc => same b (List.mem_append_left _ hb) c (List.mem_append_left _ hc)
    have hr' := hr fun b hb c hc => same b (List.mem_append_right _ hb) c (List.mem_append_right _ hc)
    obtain ⟨-, -, -, -, -, -, b, hb, hb1, hb2⟩ := eval_add l
    obtain ⟨-, -, -, -, -, -, c, hc, hc1, hc2⟩ := eval_add r
    obtain ⟨h1, h2⟩ := same b (List.mem_append_left _ hb) c (List.mem_append_right _ hc)
    exact ⟨hl', hr', by rw [← hb1, ← hc1, h1], by rw [← hb2, ← hc2, h2]⟩

/-! ### The data behind each dataset histogram -/

variable {P K V : Type} [DecidableEq P] [DecidableEq K]

/-- Number of distinct partitions of an id. -/
def partitionsOfId (rows : List (P × K × V)) (p : P) : ℕ :=
  (((rows.filter fun r => r.1 = p).map fun r => r.2.1).dedup).length

/-- Number of rows of an id. -/
def rowsOfId (rows : List (P × K × V)) (p : P) : ℕ := (rows.filter fun r => r.1 = p).length

/-- Number of rows of an id in a partition. -/
def rowsOfPair (rows : List (P × K × V)) (pk : P × K) : ℕ := (rows.filter fun r => r.1 = pk.1 ∧ r.2.1 = pk.2).length

/-- Number of rows of a partition. -/
def rowsOfPartition (rows : List (P × K × V)) (k : K) : ℕ := (rows.filter fun r => r.2.1 = k).length

/-- Number of distinct ids of a partition. -/
def idsOfPartition (rows : List (P × K × V)) (k : K) : ℕ :=
  (((rows.filter fun r => r.2.1 = k).map fun r => r.1).dedup).length

def allIds (rows : List (P × K × V)) : List P := (rows.map fun r => r.1).dedup
def allPartitions (rows : List (P × K × V)) : List K := (rows.map fun r => r.2.1).dedup
def allPairs (rows : List (P × K × V)) : List (P × K) := (rows.map fun r => (r.1, r.2.1)).dedup

/-- The five count histograms describe: partitions per id, rows per id, rows per (id, partition), rows per
partition, ids per partition. -/
structure DescribesCounts (rows : List (P × K × V)) (h : CountHistograms) : Prop where
  l0 : IsCountHistogram ((allIds rows).map (partitionsOfId rows)) h.l0
  l1 : IsCountHistogram ((allIds rows).map (rowsOfId rows)) h.l1
  linf : IsCountHistogram ((allPairs rows).map (rowsOfPair rows)) h.linf
  partitionCount : IsCountHistogram ((allPartitions rows).map (rowsOfPartition rows)) h.partitionCount
  partitionId : IsCountHistogram ((allPartitions rows).map (idsOfPartition rows)) h.partitionId

theorem DescribesCounts.unique {rows : List (P × K × V)} {a b : CountHistograms} (ha : DescribesCounts rows a)
    (hb : DescribesCounts rows b) : a = b := by
  cases a; cases b
  simp only [CountHistograms.mk.injEq]
  exact ⟨ha.l0.unique hb.l0, ha.l1.unique hb.l1, ha.linf.unique hb.linf,
    ha.partitionCount.unique hb.partitionCount, ha.partitionId.unique hb.partitionId⟩

theorem counts_perm {α : Type} [DecidableEq α] (O : Ops) (hO : O.Lawful) (col : List α) :
    ((O.countPerElement col).map Prod.snd).Perm (col.dedup.map fun a => col.count a) := by
  have h : IsCount col (col.dedup.map fun a => (a, col.count a)) := by
    refine ⟨?_, ?_, ?_⟩
    · simp [Function.comp_def, List.nodup_dedup]
    · intro a; simp
    · intro e he
      obtain ⟨a, -, rfl⟩ := List.mem_map.mp he
      rfl
  have hp := (IsCount.perm (hO.count col) h (List.Perm.refl _)).map Prod.snd
  rw [List.map_map] at hp
  exact hp

theorem dedup_perm_of_mem {α : Type} [DecidableEq α] {a b : List α} (h : ∀ x, x ∈ a ↔ x ∈ b) : a.dedup.Perm b.dedup :=
  perm_of_nodup (List.nodup_dedup _) (List.nodup_dedup _) fun x => by simp [h]

theorem count_map_eq_filter {α β : Type} [DecidableEq β] (f : α → β) (b : β) (l : List α) :
    (l.map f).count b = (l.filter fun a => f a = b).length := by
  induction l with
  | nil => rfl
  | cons a l ih =>
    rw [List.map_cons, List.count_cons, ih, List.filter_cons]
    by_cases h : f a = b <;> simp [h]

theorem distinct_fst_count (rows : List (P × K × V)) (d : List (P × K))
    (hd : IsDistinct (rows.map fun r => (r.1, r.2.1)) d) (p : P) :
    (d.map Prod.fst).count p = partitionsOfId rows p := by
  rw [count_map_eq_filter]
  unfold partitionsOfId
  have h1 : ((d.filter fun a => a.1 = p).map Prod.snd).Perm
      (((rows.filter fun r => r.1 = p).map fun r => r.2.1).dedup) := by
    apply perm_of_nodup _ (List.nodup_dedup _)
    · intro k
      simp only [List.mem_map, List.mem_filter, List.mem_dedup, decide_eq_true_eq, hd.mem]
      constructor
      · rintro ⟨x, ⟨⟨r, hr, rfl⟩, h2⟩, rfl⟩; exact ⟨r, ⟨hr, h2⟩, rfl⟩
      · rintro ⟨r, ⟨hr, h2⟩, rfl⟩; exact ⟨(r.1, r.2.1), ⟨⟨r, hr, rfl⟩, h2⟩, rfl⟩
    · refine List.Nodup.map_on ?_ (hd.nodup.filter _)
      intro x hx y hy hxy
      have h1 := (List.mem_filter.mp hx).2
      have h2 := (List.mem_filter.mp hy).2
      simp only [decide_eq_true_eq] at h1 h2
      exact Prod.ext (by rw [h1, h2]) hxy
  rw [← h1.length_eq, List.length_map]

theorem distinct_snd_count (rows : List (P × K × V)) (d : List (P × K))
    (hd : IsDistinct (rows.map fun r => (r.1, r.2.1)) d) (k : K) :
    (d.map Prod.snd).count k = idsOfPartition rows k := by
  rw [count_map_eq_filter]
  unfold idsOfPartition
  have h1 : ((d.filter fun a => a.2 = k).map Prod.fst).Perm
      (((rows.filter fun r => r.2.1 = k).map fun r => r.1).dedup) := by
    apply perm_of_nodup _ (List.nodup_dedup _)
    · intro p
      simp only [List.mem_map, List.mem_filter, List.mem_dedup, decide_eq_true_eq, hd.mem]
      constructor
      · rintro ⟨x, ⟨⟨r, hr, rfl⟩, h2⟩, rfl⟩; exact ⟨r, ⟨hr, h2⟩, rfl⟩
      · rintro ⟨r, ⟨hr, h2⟩, rfl⟩; exact ⟨(r.1, r.2.1), ⟨⟨r, hr, rfl⟩, h2⟩, rfl⟩
    · refine List.Nodup.map_on ?_ (hd.nodup.filter _)
      intro x hx y hy hxy
      have h1 := (List.mem_filter.mp hx).2
      have h2 := (List.mem_filter.mp hy).2
      simp only [decide_eq_true_eq] at h1 h2
      exact Prod.ext hxy (by rw [h1, h2])
  rw [← h1.length_eq, List.length_map]

/-- Counting elements and then building the histogram. -/
theorem count_histogram {α : Type} [DecidableEq α] (O : Ops) (hO : O.Lawful) (col keys : List α) (f : α → ℕ)
    (hk : ∀ a, a ∈ col ↔ a ∈ keys) (hn : keys.Nodup) (hf : ∀ a ∈ keys, col.count a = f a) :
    IsCountHistogram (keys.map f) (frequencyHistogram O ((O.countPerElement col).map Prod.snd)) := by
  refine (frequencyHistogram_spec O hO _).perm ((counts_perm O hO col).trans ?_)
  have h1 : (keys.map fun a => col.count a) = keys.map f := List.map_congr_left hf
  rw [← h1]
  apply List.Perm.map
  exact perm_of_nodup (List.nodup_dedup _) hn fun a => by rw [List.mem_dedup, hk]

/-- **C33.** `compute_dataset_histograms` describes the dataset: the five count histograms are those of
partitions per id, rows per id, rows per (id, partition), rows per partition and ids per partition. -/
theorem C33_dataset_histograms (O : Ops) (hO : O.Lawful) (rows : List (P × K × V)) :
    DescribesCounts rows (datasetHistograms O rows) := by
  have hcol : (rows.map fun r => ((r.1, r.2.1), r.2.2)).map Prod.fst = rows.map fun r => (r.1, r.2.1) := by
    rw [List.map_map]; rfl
  have hd := hO.distinct (rows.map fun r => (r.1, r.2.1))
  unfold datasetHistograms
  simp only [hcol]
  refine ⟨?_, ?_, ?_, ?_, ?_⟩
  · refine count_histogram O hO _ _ _ ?_ (List.nodup_dedup _) fun p _ => distinct_fst_count rows _ hd p
    intro p
    simp only [allIds, List.mem_dedup, List.mem_map, hd.mem]
    constructor
    · rintro ⟨x, ⟨r, hr, rfl⟩, rfl⟩; exact ⟨r, hr, rfl⟩
    · rintro ⟨r, hr, rfl⟩; exact ⟨_, ⟨r, hr, rfl⟩, rfl⟩
  · refine count_histogram O hO _ _ _ ?_ (List.nodup_dedup _) ?_
    · intro p; simp [allIds]
    · intro p _
      rw [List.map_map, count_map_eq_filter]; rfl
  · refine count_histogram O hO _ _ _ ?_ (List.nodup_dedup _) ?_
    · intro p; simp [allPairs]
    · intro p _
      rw [count_map_eq_filter]
      unfold rowsOfPair
      congr 1
      apply List.filter_congr
      intro r _
      rw [Bool.eq_iff_iff]
      simp [Prod.ext_iff]
  · refine count_histogram O hO _ _ _ ?_ (List.nodup_dedup _) ?_
    · intro k; simp [allPartitions]
    · intro k _
      rw [List.map_map, count_map_eq_filter]; rfl
  · refine count_histogram O hO _ _ _ ?_ (List.nodup_dedup _) fun k _ => distinct_snd_count rows _ hd k
    intro k
    simp only [allPartitions, List.mem_dedup, List.mem_map, hd.mem]
    constructor
    · rintro ⟨x, ⟨r, hr, rfl⟩, rfl⟩; exact ⟨r, hr, rfl⟩
    · rintro ⟨r, hr, rfl⟩; exact ⟨_, ⟨r, hr, rfl⟩, rfl⟩

/-- A concrete histogram: the values 1, 3, 3, 1005, 1003 and 1 fall into three bins. -/
example : IsCountHistogram [1, 3, 3, 1005, 1003, 1]
    [⟨1, 2, 2, 2, 1, 1⟩, ⟨3, 4, 2, 6, 3, 3⟩, ⟨1000, 1010, 2, 2008, 1005, 1003⟩] := by
  have h1 : intBounds 1 = (1, 2) := by simp [intBounds, binBounds, growBound]
  have h3 : intBounds 3 = (3, 4) := by simp [intBounds, binBounds, growBound]
  have h5 : intBounds 1005 = (1000, 1010) := by simp [intBounds, binBounds, growBound]
  have h6 : intBounds 1003 = (1000, 1010) := by simp [intBounds, binBounds, growBound]
  constructor
  · simp; norm_num
  · intro l; simp [h1, h3, h5, h6]; tauto
  all_goals (intro b hb; simp only [List.mem_cons, List.not_mem_nil, or_false] at hb)
  all_goals (rcases hb with rfl | rfl | rfl)
  all_goals (simp [inBin, h1, h3, h5, h6] <;> norm_num)

end PDP.Histogram
