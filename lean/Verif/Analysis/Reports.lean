import Verif.Lib.Ops
import Verif.Analysis.Config
import Mathlib.Data.List.GetD
import Mathlib.Data.List.TakeWhile
import Mathlib.Tactic.Linarith
import Mathlib.Tactic.Set

/-!
# From per-partition results to utility reports (`analysis/utility_analysis.py`)
-/

set_option linter.unusedVariables false

namespace PDP.Analysis.Reports

open PDP.Engine (MergeTree IsCombine)

/-! ### Model -/

/-- `_generate_bucket_bounds` (`utility_analysis.py:28-34`). -/
def bucketBounds : List ℕ := [0, 1] ++ (List.range 12).flatMap fun i => [10 ^ (i + 1), 2 * 10 ^ (i + 1), 5 * 10 ^ (i + 1)]

/-- `bisect.bisect_right` on an increasing sequence: the number of leading elements which are at most `n`. -/
def bisectRight (bounds : List ℕ) (n : ℕ) : ℕ := (bounds.takeWhile fun b => b ≤ n).length

/-- `_get_lower_bound` (`utility_analysis.py:184-187`); a partition size is never negative. -/
def lower (bounds : List ℕ) (n : ℕ) : ℕ := bounds.getD (bisectRight bounds n - 1) 0

/-- `_get_upper_bound` (`utility_analysis.py:190-196`). -/
def upper (bounds : List ℕ) (n : ℕ) : ℤ :=
  if bisectRight bounds n ≥ bounds.length then -1 else (bounds.getD (bisectRight bounds n) 0 : ℕ)

/-- A result of one combiner for one partition: the probability to keep the partition (the only one which is a `float`), or
the errors of a metric. -/
inductive Item (E : Type) where
  | probability (p : ℚ)
  | errors (e : E)

/-- `metrics.PerPartitionMetrics`; `ids` and `rows` are the raw statistics. -/
structure PartitionMetrics (E : Type) where
  keep : ℚ
  ids : ℕ
  rows : ℕ
  errors : List E
deriving DecidableEq

inductive Err where
  | assertionError
  | zeroDivision
deriving DecidableEq

/-- `if isinstance(metric, float): … else: …` (`utility_analysis.py:177-180`). -/
def PartitionMetrics.put {E : Type} (m : PartitionMetrics E) : Item E → PartitionMetrics E
  | .probability p => { m with keep := p }
  | .errors e => { m with errors := m.errors ++ [e] }

/-- `_pack_per_partition_metrics` (`utility_analysis.py:148-181`); `items` is `utility_result[1:]`, the raw statistics are the
first element.  (The index `i // n_metrics` is below the number of configurations.) -/
def pack {E : Type} (ids rows : ℕ) (items : List (Item E)) (n : ℕ) : Except Err (List (PartitionMetrics E)) :=
  if n = 0 then .error .zeroDivision
  else if items.length % n ≠ 0 then .error .assertionError
  else
    .ok (items.zipIdx.foldl (fun result x => result.modify (x.2 / (items.length / n)) fun m => m.put x.1)
      (List.replicate n ⟨1, ids, rows, []⟩))

/-- `_unnest_metrics` (`utility_analysis.py:199-210`). -/
def unnest {E : Type} (metrics : List (PartitionMetrics E)) : List ((ℕ × Option ℕ) × PartitionMetrics E) :=
  metrics.zipIdx.flatMap fun x =>
    [((x.2, none), x.1), ((x.2, some (lower bucketBounds ((metrics.head?.map fun m => m.ids).getD 0))), x.1)]

/-- `metrics.UtilityReportBin`. -/
structure Bin (R : Type) where
  lo : ℕ
  hi : ℤ
  report : R

/-- `metrics.UtilityReport`: index of the configuration, the values for all partitions, and the histogram. -/
structure Report (R : Type) where
  index : ℕ
  total : R
  bins : List (Bin R)

/-- `_group_utility_reports` (`utility_analysis.py:213-252`). -/
def groupReports {R : Type} (e : ℕ × List (Option ℕ × R)) : Option (Report R) :=
  match (e.2.filter fun x => x.1.isNone).getLast? with
  | none => none
  | some g =>
    let hist := (e.2.filterMap fun x => x.1.map fun b => (b, x.2)).insertionSort fun a b => a.1 ≤ b.1
    some ⟨e.1, g.2, hist.map fun x => ⟨x.1, upper bucketBounds x.1, x.2⟩⟩

/-- `perform_utility_analysis` after the packing (`utility_analysis.py:83-127`): `create`, `merge` and `compute` are the
functions of the cross-partition combiner. -/
def reports {K E A R : Type} (O : Ops) (create : PartitionMetrics E → A) (merge : A → A → A) (compute : A → R)
    (partitions : List (K × List (PartitionMetrics E))) : List (Option (Report R)) :=
  let col := (partitions.map Prod.snd).flatMap unnest
  let accs := col.map fun e => (e.1, create e.2)
  let accs := O.reducePerKey merge accs
  let metrics := accs.map fun e => (e.1, compute e.2)
  let rekeyed := metrics.map fun e => (e.1.1, (e.1.2, e.2))
  (O.group rekeyed).map groupReports

/-! ### C56: buckets -/

/-- A size is in the bucket from `lo` to `hi`, exclusive; `-1` means that there is no upper bound. -/
def InBucket (lo : ℕ) (hi : ℤ) (n : ℕ) : Prop := lo ≤ n ∧ (hi = -1 ∨ (n : ℤ) < hi)

/-- Bounds which start with 0 and increase. -/
def Good (bounds : List ℕ) : Prop := bounds.head? = some 0 ∧ bounds.Pairwise (· < ·)

theorem good_bucketBounds : Good bucketBounds := ⟨rfl, by decide +kernel⟩

theorem bisect_le (bs : List ℕ) (n : ℕ) : bisectRight bs n ≤ bs.length := by
  unfold bisectRight
  exact (List.takeWhile_sublist _).length_le

theorem bisect_below : ∀ {bs : List ℕ} {n i : ℕ} {b : ℕ}, bs[i]? = some b → i < bisectRight bs n → b ≤ n
  | [], n, i, b, h, _ => by simp at h
  | x :: bs, n, i, b, h, hi => by
    unfold bisectRight at hi
    rw [List.takeWhile_cons] at hi
    split_ifs at hi with hx
    · cases i with
      | zero => simp at h; subst h; simpa using hx
      | succ i => exact bisect_below (bs := bs) (i := i) (by simpa using h) (by simpa [bisectRight] using hi)
    · simp at hi

theorem bisect_at : ∀ {bs : List ℕ} {n : ℕ} {b : ℕ}, bs[bisectRight bs n]? = some b → n < b
  | [], n, b, h => by simp at h
  | x :: bs, n, b, h => by
    unfold bisectRight at h
    rw [List.takeWhile_cons] at h
    split_ifs at h with hx
    · exact bisect_at (bs := bs) (by simpa [bisectRight] using h)
    · simp at h; subst h; simpa using hx

theorem bisect_above {bs : List ℕ} (hs : bs.Pairwise (· < ·)) {n i b : ℕ} (h : bs[i]? = some b)
    (hi : bisectRight bs n ≤ i) : n < b := by
  obtain ⟨hil, hb⟩ := List.getElem?_eq_some_iff.1 h
  have hk : bisectRight bs n < bs.length := by omega
  have h1 := bisect_at (List.getElem?_eq_getElem hk)
  rcases Nat.lt_or_eq_of_le hi with hlt | heq
  · have := List.pairwise_iff_getElem.1 hs _ _ hk hil hlt
    omega
  · simp only [heq] at h1; omega

theorem bisect_unique {bs : List ℕ} (hs : bs.Pairwise (· < ·)) {n k : ℕ} (hk : k ≤ bs.length)
    (h1 : ∀ i b, bs[i]? = some b → i < k → b ≤ n) (h2 : ∀ i b, bs[i]? = some b → k ≤ i → n < b) : bisectRight bs n = k := by
  rcases Nat.lt_trichotomy (bisectRight bs n) k with h | h | h
  · have hl : bisectRight bs n < bs.length := by omega
    have a := bisect_at (List.getElem?_eq_getElem hl)
    have b := h1 _ _ (List.getElem?_eq_getElem hl) h
    omega
  · exact h
  · have hl : k < bs.length := by have := bisect_le bs n; omega
    have a := bisect_below (List.getElem?_eq_getElem hl) h
    have b := h2 _ _ (List.getElem?_eq_getElem hl) (le_refl _)
    omega

theorem bisect_pos {bs : List ℕ} (hg : Good bs) (n : ℕ) : 1 ≤ bisectRight bs n := by
  by_contra hc
  have h0 : bisectRight bs n = 0 := by omega
  have hh : bs[0]? = some 0 := by rw [← List.head?_eq_getElem?]; exact hg.1
  have := bisect_at (bs := bs) (n := n) (b := 0) (by rw [h0]; exact hh)
  omega

theorem bisect_getElem {bs : List ℕ} (hs : bs.Pairwise (· < ·)) {j b : ℕ} (h : bs[j]? = some b) :
    bisectRight bs b = j + 1 := by
  obtain ⟨hj, hb⟩ := List.getElem?_eq_some_iff.1 h
  refine bisect_unique hs (by omega) ?_ ?_
  · intro i x hx hi
    obtain ⟨hil, hxe⟩ := List.getElem?_eq_some_iff.1 hx
    rcases Nat.lt_or_eq_of_le (Nat.lt_succ_iff.1 hi) with hlt | heq
    · have := List.pairwise_iff_getElem.1 hs _ _ hil hj hlt; omega
    · subst heq; omega
  · intro i x hx hi
    obtain ⟨hil, hxe⟩ := List.getElem?_eq_some_iff.1 hx
    have := List.pairwise_iff_getElem.1 hs _ _ hj hil (by omega); omega

theorem lower_get {bs : List ℕ} (hg : Good bs) (n : ℕ) : bs[bisectRight bs n - 1]? = some (lower bs n) := by
  have h1 := bisect_pos hg n
  have h2 := bisect_le bs n
  unfold lower
  rw [List.getD_eq_getElem _ _ (by omega), List.getElem?_eq_getElem (by omega)]

theorem upper_eq {bs : List ℕ} (n : ℕ) :
    (bs.length ≤ bisectRight bs n ∧ upper bs n = -1) ∨
    ∃ b, bs[bisectRight bs n]? = some b ∧ upper bs n = (b : ℤ) := by
  unfold upper
  split_ifs with h
  · exact Or.inl ⟨h, rfl⟩
  · exact Or.inr ⟨_, List.getElem?_eq_getElem (by omega), by rw [List.getD_eq_getElem _ _ (by omega)]⟩

/-- The lower bound determines the bucket. -/
theorem inBucket_iff {bs : List ℕ} (hg : Good bs) {b n : ℕ} (hb : b ∈ bs) :
    InBucket b (upper bs b) n ↔ lower bs n = b := by
  obtain ⟨j, hj, hjb⟩ := List.getElem_of_mem hb
  have hjb' : bs[j]? = some b := by rw [List.getElem?_eq_getElem hj, hjb]
  have hbis := bisect_getElem hg.2 hjb'
  constructor
  · rintro ⟨h1, h2⟩
    have hk : bisectRight bs n = j + 1 := by
      refine bisect_unique hg.2 (by omega) ?_ ?_
      · intro i x hx hi
        obtain ⟨hil, hxe⟩ := List.getElem?_eq_some_iff.1 hx
        rcases Nat.lt_or_eq_of_le (Nat.lt_succ_iff.1 hi) with hlt | heq
        · have := List.pairwise_iff_getElem.1 hg.2 _ _ hil hj hlt; omega
        · subst heq; omega
      · intro i x hx hi
        obtain ⟨hil, hxe⟩ := List.getElem?_eq_some_iff.1 hx
        rcases upper_eq (bs := bs) b with ⟨h3, h4⟩ | ⟨u, h3, h4⟩
        · omega
        · rw [hbis] at h3
          obtain ⟨hul, hue⟩ := List.getElem?_eq_some_iff.1 h3
          have hnu : n < u := by
            rcases h2 with h2 | h2
            · rw [h4] at h2; omega
            · rw [h4] at h2; omega
          rcases Nat.lt_or_eq_of_le hi with hlt | heq
          · have := List.pairwise_iff_getElem.1 hg.2 _ _ hul hil hlt; omega
          · subst heq; omega
    have := lower_get hg n
    rw [hk, Nat.add_sub_cancel, hjb'] at this
    exact (Option.some.inj this).symm
  · intro h
    subst h
    have h1 := lower_get hg n
    have hjk : bisectRight bs n = j + 1 := by
      have hp := bisect_pos hg n
      have := bisect_getElem hg.2 h1
      omega
    refine ⟨bisect_below h1 (by have := bisect_pos hg n; omega), ?_⟩
    rcases upper_eq (bs := bs) (lower bs n) with ⟨h3, h4⟩ | ⟨u, h3, h4⟩
    · exact Or.inl h4
    · right
      rw [hbis, ← hjk] at h3
      have := bisect_at h3
      rw [h4]; exact_mod_cast this

/-- **C56** (buckets). Every size is in the bucket it is put in; another bucket contains it only if it is the same one; and the
buckets tile: each one is non-empty, and if it ends, the next one starts where it ends. -/
theorem C56_buckets (n : ℕ) :
    let lo := lower bucketBounds n
    let hi := upper bucketBounds lo
    InBucket lo hi n ∧ lo ∈ bucketBounds ∧
    (∀ m, InBucket lo hi m ↔ lower bucketBounds m = lo) ∧
    (hi = -1 → ∀ m, n ≤ m → lower bucketBounds m = lo) ∧
    (hi ≠ -1 → ∃ next ∈ bucketBounds, hi = (next : ℤ) ∧ lo < next ∧ lower bucketBounds next = next) := by
  intro lo hi
  have hg := good_bucketBounds
  have hget := lower_get hg n
  have hmem : lo ∈ bucketBounds := List.mem_of_getElem? hget
  refine ⟨(inBucket_iff hg hmem).2 rfl, hmem, fun m => inBucket_iff hg hmem, ?_, ?_⟩
  · intro h m hm
    rw [← inBucket_iff hg hmem]
    exact ⟨((inBucket_iff hg hmem).2 rfl : InBucket lo hi n).1.trans hm, Or.inl h⟩
  · intro h
    rcases upper_eq (bs := bucketBounds) lo with ⟨_, h4⟩ | ⟨u, h3, h4⟩
    · exact absurd h4 h
    · refine ⟨u, List.mem_of_getElem? h3, h4, bisect_at h3, ?_⟩
      have h5 := lower_get hg u
      rw [bisect_getElem hg.2 h3, Nat.add_sub_cancel, h3] at h5
      exact (Option.some.inj h5).symm

/-- **C56** (bounds of the buckets).  Buckets start at 0, 1, and 10, 20, 50, 100, 200, 500, ... up to 5 * 10^12. -/
theorem C56_bucket_bounds (b : ℕ) :
    b ∈ bucketBounds ↔ b = 0 ∨ b = 1 ∨ ∃ i, 1 ≤ i ∧ i ≤ 12 ∧ (b = 10 ^ i ∨ b = 2 * 10 ^ i ∨ b = 5 * 10 ^ i) := by
  simp only [bucketBounds, List.mem_append, List.mem_cons, List.not_mem_nil, or_false, List.mem_flatMap, List.mem_range, or_assoc]
  refine or_congr Iff.rfl (or_congr Iff.rfl ⟨?_, ?_⟩)
  · rintro ⟨i, hi, h⟩
    exact ⟨i + 1, by omega, by omega, h⟩
  · rintro ⟨i, h1, h2, h⟩
    refine ⟨i - 1, by omega, ?_⟩
    rwa [Nat.sub_add_cancel h1]

example : lower bucketBounds 49 = 20 ∧ upper bucketBounds 20 = 50 ∧ lower bucketBounds 50 = 50 := by decide +kernel
example : lower bucketBounds (7 * 10 ^ 12) = 5 * 10 ^ 12 ∧ upper bucketBounds (5 * 10 ^ 12) = -1 := by decide +kernel

/-! ### C56: packing -/

/-- The results of one configuration: the probability to keep the partition (1 if none is computed) and the errors of the
metrics, in order. -/
def IsPacked {E : Type} (ids rows : ℕ) (block : List (Item E)) (m : PartitionMetrics E) : Prop :=
  m.ids = ids ∧ m.rows = rows ∧
  m.errors = block.filterMap (fun x => match x with | .errors e => some e | .probability _ => none) ∧
  m.keep = ((block.filterMap fun x => match x with | .probability p => some p | .errors _ => none).getLast?).getD 1

theorem put_block {E : Type} (ids rows : ℕ) : ∀ (block done : List (Item E)) (m : PartitionMetrics E),
    IsPacked ids rows done m → IsPacked ids rows (done ++ block) (block.foldl PartitionMetrics.put m)
  | [], done, m, h => by simpa using h
  | x :: block, done, m, h => by
    have happ : done ++ x :: block = (done ++ [x]) ++ block := by simp
    rw [happ, List.foldl_cons]
    refine put_block ids rows block _ _ ?_
    obtain ⟨h1, h2, h3, h4⟩ := h
    cases x with
    | probability p => exact ⟨h1, h2, by simpa [PartitionMetrics.put] using h3, by simp [PartitionMetrics.put]⟩
    | errors e => exact ⟨h1, h2, by simp [PartitionMetrics.put, h3], by simpa [PartitionMetrics.put] using h4⟩

theorem fold_block {E : Type} (k s : ℕ) : ∀ (block : List (Item E)) (start : ℕ) (result : List (PartitionMetrics E)),
    (∀ i, start ≤ i → i < start + block.length → i / k = s) →
    (block.zipIdx start).foldl (fun result x => result.modify (x.2 / k) fun m => m.put x.1) result =
      result.modify s fun m => block.foldl PartitionMetrics.put m
  | [], start, result, _ => by
    simp only [List.zipIdx_nil, List.foldl_nil]
    apply List.ext_getElem?
    intro i
    rw [List.getElem?_modify]
    split_ifs <;> simp
  | x :: block, start, result, h => by
    rw [List.zipIdx_cons, List.foldl_cons, h start (le_refl _) (by simp),
      fold_block k s block (start + 1) _ fun i h1 h2 => h i (by omega) (by simp; omega)]
    apply List.ext_getElem?
    intro i
    simp only [List.getElem?_modify]
    split_ifs
    · simp [Function.comp_def]
    · cases result[i]? <;> rfl

theorem fold_blocks {E : Type} (k : ℕ) (hk : 0 < k) (m0 : PartitionMetrics E) :
    ∀ (blocks : List (List (Item E))) (s : ℕ) (done : List (PartitionMetrics E)),
    (∀ b ∈ blocks, b.length = k) → done.length = s →
    (blocks.flatten.zipIdx (s * k)).foldl (fun result x => result.modify (x.2 / k) fun m => m.put x.1)
      (done ++ List.replicate blocks.length m0) = done ++ blocks.map fun b => b.foldl PartitionMetrics.put m0
  | [], s, done, _, _ => by simp
  | b :: blocks, s, done, h, hd => by
    have hb := h b (by simp)
    rw [List.flatten_cons, List.zipIdx_append, List.foldl_append, fold_block k s b]
    · have hmod : (done ++ List.replicate (b :: blocks).length m0).modify s (fun m => b.foldl PartitionMetrics.put m) =
          (done ++ [b.foldl PartitionMetrics.put m0]) ++ List.replicate blocks.length m0 := by
        apply List.ext_getElem?
        intro i
        rw [List.getElem?_modify]
        subst hd
        rcases Nat.lt_trichotomy i done.length with hi | hi | hi
        · simp [hi, hi.ne', List.getElem?_append_left, List.append_assoc]
        · subst hi
          simp [List.replicate_succ]
        · rw [List.getElem?_append_right (by omega), List.append_assoc, List.getElem?_append_right (by omega)]
          obtain ⟨j, hj⟩ : ∃ j, i - done.length = j + 1 := ⟨i - done.length - 1, by omega⟩
          rw [hj]
          simp [List.replicate_succ, hi.ne]
      rw [hmod]
      have hstart : s * k + b.length = (s + 1) * k := by rw [hb]; ring
      rw [hstart, fold_blocks k hk m0 blocks (s + 1) _ (fun x hx => h x (by simp [hx])) (by simp [hd])]
      simp
    · intro i h1 h2
      rw [hb] at h2
      rw [Nat.div_eq_iff hk]
      constructor
      · exact h1
      · rw [Nat.add_comm] at h2
        omega

theorem flatten_length {A : Type} (k : ℕ) : ∀ (blocks : List (List A)), (∀ b ∈ blocks, b.length = k) →
    blocks.flatten.length = blocks.length * k
  | [], _ => by simp
  | b :: blocks, h => by
    rw [List.flatten_cons, List.length_append, h b (by simp), flatten_length k blocks fun x hx => h x (by simp [hx])]
    simp; ring

/-- **C56** (packing). If the results of a partition are those of the configurations one after another, equally many for each
(in particular if there are none), then each configuration gets its own ones: its probability to keep the partition, 1 if
there is none, and its errors in order; and the raw statistics. -/
theorem C56_pack {E : Type} (ids rows k : ℕ) (blocks : List (List (Item E))) (hne : blocks ≠ [])
    (hk : ∀ b ∈ blocks, b.length = k) :
    ∃ l, pack ids rows blocks.flatten blocks.length = .ok l ∧ List.Forall₂ (IsPacked ids rows) blocks l := by
  have hn : 0 < blocks.length := List.length_pos_iff.2 hne
  have hlen := flatten_length k blocks hk
  refine ⟨blocks.map fun b => b.foldl PartitionMetrics.put ⟨1, ids, rows, []⟩, ?_, ?_⟩
  · unfold pack
    rw [if_neg (by omega), if_neg (not_not.2 (by rw [hlen]; simp))]
    have hdiv : blocks.flatten.length / blocks.length = k := by rw [hlen]; exact Nat.mul_div_cancel_left k hn
    rw [hdiv]
    congr 1
    rcases Nat.eq_zero_or_pos k with h0 | hpos
    · subst h0
      have hnil : blocks.flatten = [] := by rw [← List.length_eq_zero_iff, hlen]; simp
      rw [hnil]
      simp only [List.zipIdx_nil, List.foldl_nil]
      symm
      rw [List.eq_replicate_iff]
      refine ⟨by simp, ?_⟩
      intro m hm
      obtain ⟨b, hb, rfl⟩ := List.mem_map.1 hm
      rw [List.length_eq_zero_iff.1 (hk b hb)]
      rfl
    · have := fold_blocks k hpos ⟨1, ids, rows, []⟩ blocks 0 [] hk rfl
      simpa using this
  · rw [List.forall₂_map_right_iff, List.forall₂_same]
    intro b _
    have := put_block ids rows b [] ⟨1, ids, rows, []⟩ ⟨rfl, rfl, rfl, rfl⟩
    simpa using this

/-- A number of results which is not a multiple of the number of configurations is refused. -/
theorem C56_pack_refused {E : Type} (ids rows : ℕ) (items : List (Item E)) (n : ℕ) (hn : 0 < n) (h : ¬ n ∣ items.length) :
    pack ids rows items n = .error .assertionError := by
  unfold pack
  rw [if_neg (by omega), if_pos (fun h0 => h (Nat.dvd_of_mod_eq_zero h0))]

example : pack 7 9 [Item.probability (1 / 2), .errors 'a', .probability (1 / 3), .errors 'b'] 2 =
    .ok [⟨1 / 2, 7, 9, ['a']⟩, ⟨1 / 3, 7, 9, ['b']⟩] := by rfl

/-! ### C56: the reports -/

/-- The number of privacy ids in a partition. -/
def size {E : Type} (ms : List (PartitionMetrics E)) : ℕ := (ms.head?.map fun m => m.ids).getD 0

/-- `r` is computed from exactly the metrics of the configuration `i` in the partitions `ps`, added up in some order. -/
def From {K E A R : Type} (create : PartitionMetrics E → A) (merge : A → A → A) (compute : A → R)
    (i : ℕ) (ps : List (K × List (PartitionMetrics E))) (r : R) : Prop :=
  ∃ t : MergeTree A, t.leaves.Perm (ps.filterMap fun p => p.2[i]?.map create) ∧ r = compute (t.eval merge)

theorem valuesOf_flatMap {K V X : Type} [DecidableEq K] (k : K) (f : X → List (K × V)) (l : List X) :
    valuesOf k (l.flatMap f) = l.flatMap fun x => valuesOf k (f x) := by
  induction l with
  | nil => rfl
  | cons x l ih => rw [List.flatMap_cons, valuesOf_append, ih, List.flatMap_cons]

theorem valuesOf_mapVal {K V W : Type} [DecidableEq K] (k : K) (f : V → W) (l : List (K × V)) :
    valuesOf k (l.map fun e => (e.1, f e.2)) = (valuesOf k l).map f := by
  induction l with
  | nil => rfl
  | cons x l ih => rw [List.map_cons, valuesOf_cons, valuesOf_cons, ih]; split <;> simp

theorem unnest_go {M : Type} (b : ℕ) (i : ℕ) (o : Option ℕ) : ∀ (ms : List M) (s : ℕ),
    valuesOf (i, o) ((ms.zipIdx s).flatMap fun x => [((x.2, (none : Option ℕ)), x.1), ((x.2, some b), x.1)]) =
      if s ≤ i ∧ (o = none ∨ o = some b) then (ms[i - s]?).toList else []
  | [], s => by simp
  | m :: ms, s => by
    rw [List.zipIdx_cons, List.flatMap_cons, valuesOf_append, unnest_go b i o ms (s + 1)]
    simp only [valuesOf_cons, valuesOf_nil, Prod.mk.injEq]
    rcases Nat.lt_trichotomy s i with h | h | h
    · have hne : ¬ s = i := by omega
      obtain ⟨j, hj⟩ : ∃ j, i - s = j + 1 := ⟨i - s - 1, by omega⟩
      have hj' : i - (s + 1) = j := by omega
      simp only [hne, false_and, if_false, List.nil_append, hj, hj']
      by_cases ho : o = none ∨ o = some b
      · rw [if_pos ⟨by omega, ho⟩, if_pos ⟨by omega, ho⟩]; simp
      · rw [if_neg (fun h => ho h.2), if_neg (fun h => ho h.2)]
    · subst h
      rw [if_neg (c := s + 1 ≤ s ∧ _) (fun h => by omega)]
      simp only [true_and, le_refl, Nat.sub_self]
      rcases o with _ | b'
      · simp
      · by_cases hb : b = b'
        · subst hb; simp
        · have hb' : ¬ b' = b := fun h => hb h.symm
          simp [hb, hb']
    · have hne : ¬ s = i := by omega
      simp only [hne, false_and, if_false, List.nil_append]
      rw [if_neg (fun h => by omega), if_neg (fun h => by omega)]

theorem valuesOf_unnest {E : Type} (i : ℕ) (o : Option ℕ) (ms : List (PartitionMetrics E)) :
    valuesOf (i, o) (unnest ms) = if o = none ∨ o = some (lower bucketBounds (size ms)) then (ms[i]?).toList else [] := by
  have := unnest_go (lower bucketBounds (size ms)) i o ms 0
  simp only [Nat.zero_le, true_and, Nat.sub_zero] at this
  unfold unnest
  convert this
  rfl

/-- The accumulators with the key of a configuration and a bucket (or of all partitions). -/
theorem valuesOf_col {K E A : Type} (create : PartitionMetrics E → A) (i : ℕ) (o : Option ℕ)
    (ps : List (K × List (PartitionMetrics E))) :
    valuesOf (i, o) (((ps.map Prod.snd).flatMap unnest).map fun e => (e.1, create e.2)) =
      (ps.filter fun p => o = none ∨ o = some (lower bucketBounds (size p.2))).filterMap fun p => p.2[i]?.map create := by
  rw [valuesOf_mapVal, valuesOf_flatMap, List.flatMap_map]
  induction ps with
  | nil => rfl
  | cons p ps ih =>
    rw [List.flatMap_cons, List.map_append, ih, valuesOf_unnest, List.filter_cons]
    by_cases ho : o = none ∨ o = some (lower bucketBounds (size p.2))
    · rw [if_pos ho, if_pos (by simpa using ho), List.filterMap_cons]
      rcases p.2[i]? with _ | m <;> simp
    · rw [if_neg ho, if_neg (by simpa using ho)]; simp

/-- **C56** (reports). For every backend which meets its contract and every non-empty collection of partitions with results
for `n` configurations: there is exactly one report per configuration. It is computed from all partitions; its bins
are in increasing order, a bin is computed from exactly the partitions whose number of privacy ids is in it, and every
partition is in exactly one bin. -/
theorem C56_reports {K E A R : Type} (O : Ops) (hO : O.Lawful) (create : PartitionMetrics E → A) (merge : A → A → A)
    (compute : A → R) (n : ℕ) (ps : List (K × List (PartitionMetrics E))) (hne : ps ≠ []) (hlen : ∀ p ∈ ps, p.2.length = n) :
    ∃ rs : List (Report R), reports O create merge compute ps = rs.map some ∧ (rs.map fun r => r.index).Perm (List.range n) ∧
      ∀ r ∈ rs, From create merge compute r.index ps r.total ∧ (r.bins.map fun b => b.lo).Pairwise (· < ·) ∧
        (∀ b ∈ r.bins, ∃ ps', List.Sublist ps' ps ∧ ps' ≠ [] ∧ (∀ p ∈ ps, p ∈ ps' ↔ InBucket b.lo b.hi (size p.2)) ∧
          (∀ p ∈ ps', InBucket b.lo b.hi (size p.2)) ∧ From create merge compute r.index ps' b.report) ∧
        ∀ p ∈ ps, ∃ b ∈ r.bins, InBucket b.lo b.hi (size p.2) ∧
          ∀ b' ∈ r.bins, InBucket b'.lo b'.hi (size p.2) → b' = b := by
  have hg := good_bucketBounds
  unfold reports
  dsimp only
  set accs := ((ps.map Prod.snd).flatMap unnest).map fun e => (e.1, create e.2) with haccs
  have hC := hO.reduce merge accs
  set out := O.reducePerKey merge accs with hout
  set rekeyed := (out.map fun e => (e.1, compute e.2)).map fun e => (e.1.1, (e.1.2, e.2)) with hrek
  have hG := hO.group rekeyed
  set groups := O.group rekeyed with hgroups
  -- keys
  have hkey : ∀ i o, (i, o) ∈ out.map Prod.fst ↔
      i < n ∧ (o = none ∨ ∃ p ∈ ps, o = some (lower bucketBounds (size p.2))) := by
    intro i o
    rw [hC.keys, ← valuesOf_ne_nil, haccs, valuesOf_col]
    constructor
    · intro h
      obtain ⟨a, ha⟩ := List.exists_mem_of_ne_nil _ h
      obtain ⟨p, hp, hpa⟩ := List.mem_filterMap.1 ha
      rw [List.mem_filter] at hp
      rcases hpi : p.2[i]? with _ | m
      · rw [hpi] at hpa; simp at hpa
      · refine ⟨?_, ?_⟩
        · by_contra hc
          rw [List.getElem?_eq_none (by rw [hlen p hp.1]; omega)] at hpi; cases hpi
        · rcases (by simpa using hp.2 : o = none ∨ _) with h | h
          · exact Or.inl h
          · exact Or.inr ⟨p, hp.1, h⟩
    · rintro ⟨hi, ho⟩
      obtain ⟨p, hp, hpo⟩ : ∃ p ∈ ps, o = none ∨ o = some (lower bucketBounds (size p.2)) := by
        rcases ho with ho | ⟨p, hp, ho⟩
        · obtain ⟨p, hp⟩ := List.exists_mem_of_ne_nil _ hne
          exact ⟨p, hp, Or.inl ho⟩
        · exact ⟨p, hp, Or.inr ho⟩
      have hl := hlen p hp
      have hmem : create (p.2[i]'(by omega)) ∈ (ps.filter fun p => o = none ∨ o = some (lower bucketBounds (size p.2))).filterMap
          fun p => p.2[i]?.map create := by
        rw [List.mem_filterMap]
        exact ⟨p, List.mem_filter.2 ⟨hp, by simpa using hpo⟩, by rw [List.getElem?_eq_getElem (by omega)]; rfl⟩
      exact List.ne_nil_of_mem hmem
  -- values
  have hval : ∀ i o r, (i, (o, r)) ∈ rekeyed →
      i < n ∧ (o = none ∨ ∃ p ∈ ps, o = some (lower bucketBounds (size p.2))) ∧
      From create merge compute i (ps.filter fun p => o = none ∨ o = some (lower bucketBounds (size p.2))) r := by
    intro i o r h
    rw [hrek, List.map_map] at h
    obtain ⟨⟨⟨i', o'⟩, a⟩, he, heq⟩ := List.mem_map.1 h
    simp only [Function.comp, Prod.mk.injEq] at heq
    obtain ⟨rfl, rfl, rfl⟩ := heq
    have hk := (hkey i' o').1 (List.mem_map.2 ⟨_, he, rfl⟩)
    obtain ⟨t, ht, hev⟩ := hC.values _ he
    refine ⟨hk.1, hk.2, t, ?_, by rw [← hev]⟩
    rw [haccs, valuesOf_col] at ht
    exact ht
  have hrkey : ∀ i o, (∃ r, (i, (o, r)) ∈ rekeyed) ↔ (i, o) ∈ out.map Prod.fst := by
    intro i o
    rw [hrek, List.map_map]
    constructor
    · rintro ⟨r, h⟩
      obtain ⟨⟨⟨i', o'⟩, a⟩, he, heq⟩ := List.mem_map.1 h
      simp only [Function.comp, Prod.mk.injEq] at heq
      obtain ⟨rfl, rfl, rfl⟩ := heq
      exact List.mem_map.2 ⟨_, he, rfl⟩
    · intro h
      obtain ⟨⟨⟨i', o'⟩, a⟩, he, heq⟩ := List.mem_map.1 h
      simp only [Prod.mk.injEq] at heq
      obtain ⟨rfl, rfl⟩ := heq
      exact ⟨compute a, List.mem_map.2 ⟨_, he, rfl⟩⟩
  -- the keys of a group are distinct
  have hnodup : ∀ g ∈ groups, (g.2.map Prod.fst).Nodup := by
    intro g hgm
    rw [((hG.values g hgm).map Prod.fst).nodup_iff]
    have hrn : (rekeyed.map fun e => (e.1, e.2.1)).Nodup := by
      rw [hrek]
      simp only [List.map_map, Function.comp_def]
      exact hC.nodup
    have : (valuesOf g.1 rekeyed).map Prod.fst =
        ((rekeyed.filter fun e => e.1 = g.1).map fun e => (e.1, e.2.1)).map Prod.snd := by
      simp [valuesOf, List.map_map, Function.comp_def]
    rw [this]
    refine List.Nodup.map_on ?_ (hrn.sublist (List.filter_sublist.map _))
    rintro ⟨a, o⟩ ha ⟨b, o'⟩ hb heq
    obtain ⟨x, hx, hxe⟩ := List.mem_map.1 ha
    obtain ⟨y, hy, hye⟩ := List.mem_map.1 hb
    have hx1 := (List.mem_filter.1 hx).2
    have hy1 := (List.mem_filter.1 hy).2
    simp only [decide_eq_true_eq] at hx1 hy1
    simp only [Prod.mk.injEq] at hxe hye heq ⊢
    exact ⟨by rw [← hxe.1, ← hye.1, hx1, hy1], heq⟩
  have hgmem : ∀ g ∈ groups, ∀ o r, (o, r) ∈ g.2 ↔ (g.1, (o, r)) ∈ rekeyed := by
    intro g hgm o r
    rw [(hG.values g hgm).mem_iff, mem_valuesOf]
  -- every group gives a report
  have hsome : ∀ g ∈ groups, ∃ r : Report R, groupReports g = some r ∧ r.index = g.1 ∧
      (none, r.total) ∈ g.2 ∧ r.bins.Perm ((g.2.filterMap fun x => x.1.map fun b => (b, x.2)).map
        fun x => (⟨x.1, upper bucketBounds x.1, x.2⟩ : Bin R)) ∧ (r.bins.map fun b => b.lo).Pairwise (· ≤ ·) := by
    intro g hgm
    have hi : g.1 < n := by
      have := (hG.keys g.1).1 (List.mem_map_of_mem hgm)
      obtain ⟨⟨i, o, r⟩, he, heq⟩ := List.mem_map.1 this
      simp only at heq
      subst heq
      exact (hval _ _ _ he).1
    obtain ⟨r0, hr0⟩ := (hrkey g.1 none).2 ((hkey g.1 none).2 ⟨hi, Or.inl rfl⟩)
    have hin := (hgmem g hgm none r0).2 hr0
    have hfne : (g.2.filter fun x => x.1.isNone) ≠ [] :=
      List.ne_nil_of_mem (List.mem_filter.2 ⟨hin, rfl⟩)
    unfold groupReports
    rw [List.getLast?_eq_some_getLast hfne]
    set gl := (g.2.filter fun x => x.1.isNone).getLast hfne with hgl
    refine ⟨_, rfl, rfl, ?_, ?_, ?_⟩
    · have hm := List.mem_filter.1 (List.getLast_mem hfne)
      rw [← hgl] at hm
      have h1 : gl.1 = none := by simpa using hm.2
      have : gl = (none, gl.2) := by rw [← h1]
      rw [this] at hm
      exact hm.1
    · exact (List.perm_insertionSort _ _).map _
    · rw [List.map_map, List.pairwise_map]
      have : Std.Total (fun a b : ℕ × R => a.1 ≤ b.1) := ⟨fun a b => le_total a.1 b.1⟩
      have : IsTrans (ℕ × R) (fun a b => a.1 ≤ b.1) := ⟨fun a b c h1 h2 => le_trans h1 h2⟩
      exact List.pairwise_insertionSort (fun a b : ℕ × R => a.1 ≤ b.1) _
  choose rep hrep using hsome
  refine ⟨groups.pmap rep fun _ h => h, ?_, ?_, ?_⟩
  · rw [List.map_pmap, ← List.pmap_eq_map (p := fun g => g ∈ groups) (H := fun _ h => h)]
    apply List.pmap_congr_left
    intro g _ hgm _
    exact (hrep g hgm).1
  · have : (groups.pmap rep fun _ h => h).map (fun r => r.index) = groups.map Prod.fst := by
      rw [List.map_pmap, ← List.pmap_eq_map (p := fun g => g ∈ groups) (H := fun _ h => h)]
      apply List.pmap_congr_left
      intro g _ hgm _
      exact (hrep g hgm).2.1
    rw [this]
    apply perm_of_nodup hG.nodup List.nodup_range
    intro i
    rw [hG.keys, List.mem_range]
    constructor
    · intro h
      obtain ⟨⟨i', o, r⟩, he, heq⟩ := List.mem_map.1 h
      simp only at heq
      subst heq
      exact (hval _ _ _ he).1
    · intro h
      obtain ⟨r0, hr0⟩ := (hrkey i none).2 ((hkey i none).2 ⟨h, Or.inl rfl⟩)
      exact List.mem_map.2 ⟨_, hr0, rfl⟩
  · intro r hr
    obtain ⟨g, hgm, hrg⟩ := List.mem_pmap.1 hr
    subst hrg
    obtain ⟨_, hidx, htot, hbins, hsorted⟩ := hrep g hgm
    have hbin : ∀ b ∈ (rep g hgm).bins, (some b.lo, b.report) ∈ g.2 ∧ b.hi = upper bucketBounds b.lo := by
      intro b hb
      obtain ⟨⟨lo, rr⟩, hx, rfl⟩ := List.mem_map.1 (hbins.mem_iff.1 hb)
      obtain ⟨⟨o, r'⟩, hy, hyo⟩ := List.mem_filterMap.1 hx
      rcases o with _ | o
      · simp at hyo
      · simp only [Option.map_some, Option.some.injEq, Prod.mk.injEq] at hyo
        obtain ⟨rfl, rfl⟩ := hyo
        exact ⟨hy, rfl⟩
    have hbin' : ∀ lo rr, (some lo, rr) ∈ g.2 → (⟨lo, upper bucketBounds lo, rr⟩ : Bin R) ∈ (rep g hgm).bins := by
      intro lo rr h
      rw [hbins.mem_iff]
      exact List.mem_map.2 ⟨(lo, rr), List.mem_filterMap.2 ⟨_, h, rfl⟩, rfl⟩
    have hlo_mem : ∀ b ∈ (rep g hgm).bins, b.lo ∈ bucketBounds := by
      intro b hb
      obtain ⟨h1, _⟩ := hbin b hb
      obtain ⟨_, h2, _⟩ := hval _ _ _ ((hgmem g hgm _ _).1 h1)
      rcases h2 with h2 | ⟨p, hp, h2⟩
      · cases h2
      · rw [Option.some.inj h2]; exact List.mem_of_getElem? (lower_get hg _)
    have hbnodup : ((rep g hgm).bins.map fun b => b.lo).Nodup := by
      rw [(hbins.map fun b => b.lo).nodup_iff, List.map_map]
      have hn := hnodup g hgm
      have heq : ((g.2.filterMap fun x => x.1.map fun b => (b, x.2)).map
          ((fun b : Bin R => b.lo) ∘ fun x => (⟨x.1, upper bucketBounds x.1, x.2⟩ : Bin R))) =
          (g.2.map Prod.fst).filterMap id := by
        rw [List.map_filterMap, List.filterMap_map]
        apply List.filterMap_congr
        intro x _
        rcases x with ⟨_ | o, r⟩ <;> rfl
      rw [heq]
      refine hn.filterMap ?_
      intro a a' b hb hb'
      simp only [id, Option.mem_def] at hb hb'
      rw [hb, hb']
    refine ⟨?_, ?_, ?_, ?_⟩
    · have h := (hval _ _ _ ((hgmem g hgm _ _).1 htot)).2.2
      rw [hidx]
      simpa using h
    · exact (hsorted.and hbnodup).imp fun h => lt_of_le_of_ne h.1 h.2
    · intro b hb
      obtain ⟨h1, h2⟩ := hbin b hb
      obtain ⟨_, h3, h4⟩ := hval _ _ _ ((hgmem g hgm _ _).1 h1)
      have hiff : ∀ p : K × List (PartitionMetrics E),
          (some b.lo = none ∨ some b.lo = some (lower bucketBounds (size p.2))) ↔ InBucket b.lo b.hi (size p.2) := by
        intro p
        rw [h2, inBucket_iff hg (hlo_mem b hb)]
        simp [eq_comm]
      refine ⟨_, List.filter_sublist, ?_, ?_, ?_, by rw [hidx]; exact h4⟩
      · rcases h3 with h3 | ⟨p, hp, h3⟩
        · cases h3
        · exact List.ne_nil_of_mem (List.mem_filter.2 ⟨hp, by simpa using h3⟩)
      · intro p hp
        rw [List.mem_filter, decide_eq_true_eq, hiff]
        simp [hp]
      · intro p hp
        rw [List.mem_filter, decide_eq_true_eq, hiff] at hp
        exact hp.2
    · intro p hp
      obtain ⟨rr, hrr⟩ := (hrkey g.1 (some (lower bucketBounds (size p.2)))).2
        ((hkey g.1 _).2 ⟨(hval _ _ _ ((hgmem g hgm _ _).1 htot)).1, Or.inr ⟨p, hp, rfl⟩⟩)
      have hb := hbin' _ _ ((hgmem g hgm _ _).2 hrr)
      refine ⟨_, hb, (inBucket_iff hg (hlo_mem _ hb)).2 rfl, ?_⟩
      intro b' hb' hin
      have hlo' : lower bucketBounds (size p.2) = b'.lo := by
        rw [(hbin b' hb').2, inBucket_iff hg (hlo_mem b' hb')] at hin
        exact hin
      exact List.inj_on_of_nodup_map hbnodup hb' hb hlo'.symm

/-- Two configurations and three partitions of 3, 15 and 4 privacy ids, on the local backend; the metrics are just added. -/
example :
    let ps := [('a', [(⟨1, 3, 0, [2]⟩ : PartitionMetrics ℕ), ⟨1, 3, 0, [20]⟩]), ('b', [⟨1, 15, 0, [5]⟩, ⟨1, 15, 0, [50]⟩]),
      ('c', [⟨1, 4, 0, [7]⟩, ⟨1, 4, 0, [70]⟩])]
    (∀ p ∈ ps, p.2.length = 2) ∧
    (reports localOps (fun m : PartitionMetrics ℕ => m.errors.sum) (· + ·) id ps).map
      (Option.map fun r => (r.index, r.total, r.bins.map fun b => (b.lo, b.hi, b.report))) =
      [some (0, 14, [(1, 10, 9), (10, 20, 5)]), some (1, 140, [(1, 10, 90), (10, 20, 50)])] := by
  refine ⟨by simp, by rfl⟩

end PDP.Analysis.Reports
