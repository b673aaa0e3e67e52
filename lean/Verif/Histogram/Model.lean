import Verif.Lib.Ops
import Verif.Histogram.Bins

/-!
# Model of dataset histograms

`dataset_histograms/histograms.py`, `count_histogram_computation.py`, `sum_histogram_computation.py`,
`computing_histograms.py` and `analysis/pre_aggregation.py`.  Floats are rationals.
-/

namespace PDP.Histogram

open PDP.Engine (Err)

/-- `histograms.py:21-46` `FrequencyBin`. -/
structure Bin where
  lower : ℚ
  upper : ℚ
  count : ℕ
  sum : ℚ
  max : ℚ
  min : ℚ
  deriving DecidableEq, Repr

/-- `histograms.py:47-51` `FrequencyBin.__add__`; the assertion that the bounds agree is dealt with in C33. -/
def Bin.add (a b : Bin) : Bin :=
  ⟨a.lower, a.upper, a.count + b.count, a.sum + b.sum, Max.max a.max b.max, Min.min a.min b.min⟩

/-- `count_histogram_computation.py:146-148` `bins_to_histogram`: `sorted(bins, key=lower)`. -/
def sortBins (bins : List Bin) : List Bin := bins.insertionSort fun a b => a.lower ≤ b.lower

/-- `count_histogram_computation.py:131-150` `_convert_frequency_bins_into_histogram`. -/
def toHistogram (O : Ops) (col : List (ℚ × Bin)) : List Bin :=
  sortBins ((O.reducePerKey Bin.add col).map Prod.snd)

/-- `count_histogram_computation.py:116-124` `_map_to_frequency_bin`. -/
def toFrequencyBin (e : ℕ × ℕ) : ℚ × Bin :=
  let (lo, hi) := binBounds e.1
  (lo, ⟨lo, hi, e.2, e.2 * e.1, e.1, e.1⟩)

/-- `count_histogram_computation.py:100-128` `_compute_frequency_histogram_helper`. -/
def frequencyHelper (O : Ops) (col : List (ℕ × ℕ)) : List Bin := toHistogram O (col.map toFrequencyBin)

/-- `count_histogram_computation.py:58-72` `_compute_frequency_histogram`. -/
def frequencyHistogram (O : Ops) (col : List ℕ) : List Bin := frequencyHelper O (O.countPerElement col)

/-- Python's `round` for one argument: to the nearest integer, ties to even. -/
def pyRound (x : ℚ) : ℤ :=
  let f := ⌊x⌋
  if x - f < 1 / 2 then f
  else if 1 / 2 < x - f then f + 1
  else if f % 2 = 0 then f else f + 1

/-- `count_histogram_computation.py:76-97` `_compute_weighted_frequency_histogram`; weights are not negative,
so the rounded sums are natural numbers. -/
def weightedHistogram (O : Ops) (col : List (ℕ × ℚ)) : List Bin :=
  frequencyHelper O ((O.sumPerKey col).map fun e => (e.1, (pyRound e.2).toNat))

/-! ### Histograms of raw data (`count_histogram_computation.py:167-296`) -/

variable {P K : Type} [DecidableEq P] [DecidableEq K]

/-- `_compute_l0_contributions_histogram` (167-191), on distinct pairs. -/
def l0Histogram (O : Ops) (distinct : List (P × K)) : List Bin :=
  frequencyHistogram O ((O.countPerElement (distinct.map Prod.fst)).map Prod.snd)

/-- `_compute_l1_contributions_histogram` (194-217). -/
def l1Histogram (O : Ops) (col : List (P × K)) : List Bin :=
  frequencyHistogram O ((O.countPerElement (col.map Prod.fst)).map Prod.snd)

/-- `_compute_linf_contributions_histogram` (220-241). -/
def linfHistogram (O : Ops) (col : List (P × K)) : List Bin :=
  frequencyHistogram O ((O.countPerElement col).map Prod.snd)

/-- `_compute_partition_count_histogram` (244-268). -/
def partitionCountHistogram (O : Ops) (col : List (P × K)) : List Bin :=
  frequencyHistogram O ((O.countPerElement (col.map Prod.snd)).map Prod.snd)

/-- `_compute_partition_privacy_id_count_histogram` (271-296), on distinct pairs. -/
def partitionIdHistogram (O : Ops) (distinct : List (P × K)) : List Bin :=
  frequencyHistogram O ((O.countPerElement (distinct.map Prod.snd)).map Prod.snd)

/-- The count histograms of `DatasetHistograms` (`histograms.py:210-225`). -/
structure CountHistograms where
  l0 : List Bin
  l1 : List Bin
  linf : List Bin
  partitionCount : List Bin
  partitionId : List Bin
  deriving DecidableEq

/-- `computing_histograms.py:81-139` `compute_dataset_histograms`: the count histograms; rows are
(privacy id, partition key, value). -/
def datasetHistograms {V : Type} (O : Ops) (rows : List (P × K × V)) : CountHistograms :=
  let col := (rows.map fun r => ((r.1, r.2.1), r.2.2)).map Prod.fst
  let distinct := O.distinct col
  { l0 := l0Histogram O distinct
    l1 := l1Histogram O col
    linf := linfHistogram O col
    partitionCount := partitionCountHistogram O col
    partitionId := partitionIdHistogram O distinct }

/-! ### Pre-aggregated data -/

/-- A pre-aggregated row: (count, sum, n_partitions, n_contributions). -/
structure PreRow where
  count : ℕ
  sum : ℚ
  nPartitions : ℕ
  nContributions : ℕ
  deriving DecidableEq, Repr

/-- `analysis/pre_aggregation.py:19-60` `preaggregate` with `L0LinfAnalysisContributionBounder`
(`analysis/contribution_bounders.py:38-83`); `keep` is the partition sampler (always true without sampling). -/
def preaggregate (O : Ops) (keep : K → Bool) (rows : List (P × K × ℚ)) : List (K × PreRow) :=
  let grouped := O.group (rows.map fun r => (r.1, (r.2.1, r.2.2)))
  let perPartition := grouped.map fun e => (e.1, dictGroup e.2)
  let unnested := perPartition.flatMap fun e =>
    (e.2.filter fun x => keep x.1).map fun x =>
      ((e.1, x.1), (⟨x.2.length, x.2.sum, e.2.length, (e.2.map fun y => y.2.length).sum⟩ : PreRow))
  unnested.map fun e => (e.1.2, e.2)

/-- `computing_histograms.py:142-187` `compute_dataset_histograms_on_preaggregated_data` and
`count_histogram_computation.py:304-429`: the count histograms.  `inv n` is the float `1.0 / n`. -/
def preHistograms (O : Ops) (inv : ℕ → ℚ) (col : List (K × PreRow)) : CountHistograms :=
  { l0 := weightedHistogram O (col.map fun e => (e.2.nPartitions, inv e.2.nPartitions))
    l1 := weightedHistogram O (col.map fun e => (e.2.nContributions, inv e.2.nPartitions))
    linf := frequencyHistogram O (col.map fun e => e.2.count)
    partitionCount := frequencyHistogram O
      ((O.sumPerKey (col.map fun e => (e.1, (e.2.count : ℚ)))).map fun e => ⌊e.2⌋.toNat)
    partitionId := frequencyHistogram O ((O.countPerElement (col.map Prod.fst)).map Prod.snd) }

/-! ### Functions of a histogram -/

/-- `histograms.py:124-125` `total_count`. -/
def totalCount (bins : List Bin) : ℕ := (bins.map Bin.count).sum

/-- `histograms.py:127-128` `total_sum`. -/
def totalSum (bins : List Bin) : ℚ := (bins.map Bin.sum).sum

/-- The inner loop `histograms.py:160-162`: quantiles still to do (largest first) and results so far (in the
order of `append`). -/
def takeQuantiles (ratio lower : ℚ) : List ℚ → List ℚ → List ℚ × List ℚ
  | [], res => ([], res)
  | q :: rest, res => if ratio ≤ q then takeQuantiles ratio lower rest (res ++ [lower]) else (q :: rest, res)

/-- The loop `histograms.py:157-162` over the bins from right to left. -/
def quantilesLoop (total : ℚ) : List Bin → ℚ → List ℚ → List ℚ → List ℚ × List ℚ
  | [], _, todo, res => (todo, res)
  | b :: bs, smaller, todo, res =>
    let smaller := smaller - b.count
    let (todo, res) := takeQuantiles (smaller / total) b.lower todo res
    quantilesLoop total bs smaller todo res

/-- `histograms.py:133-165` `Histogram.quantiles`.  An unsorted argument fails an assertion (modelled as
`valueError`); a negative quantile reaches `bin[0]`, a `TypeError`. -/
def quantiles (bins : List Bin) (q : List ℚ) : Except Err (List ℚ) :=
  if ¬ q.Pairwise (· ≤ ·) then .error .valueError
  else if totalCount bins = 0 then .error .valueError
  else
    let (todo, res) := quantilesLoop (totalCount bins) bins.reverse (totalCount bins) q.reverse []
    if todo.isEmpty then .ok res.reverse else .error .typeError

/-- The loop of `compute_ratio_dropped` (`histograms.py:194-201`) over the bins from right to left. -/
def ratioLoop (total : ℚ) : List Bin → ℚ → ℚ → ℚ → List (ℚ × ℚ)
  | [], _, _, _ => []
  | b :: bs, dropped, larger, previous =>
    let dropped := dropped + (larger * (previous - b.lower) + (b.sum - b.count * b.lower))
    (b.lower, dropped / total) :: ratioLoop total bs dropped (larger + b.count) b.lower

/-- `histograms.py:174-203` `compute_ratio_dropped`. -/
def ratioDropped (bins : List Bin) : List (ℚ × ℚ) :=
  match bins.getLast? with
  | none => []
  | some last =>
    let top := if last.max ≠ last.lower then [(last.max, (0 : ℚ))] else []
    (top ++ ratioLoop (totalSum bins) bins.reverse 0 0 last.lower ++ [(0, 1)]).reverse

end PDP.Histogram
