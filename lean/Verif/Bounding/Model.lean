import Verif.Lib.Group

/-!
# Model of backends and of `pipeline_dp/contribution_bounders.py`

Collections are lists.  The order of a distributed collection has no meaning, so every backend
operation whose result order is free is an arbitrary function constrained by a contract
(`Backend.Lawful`); `localBackend` is the concrete `LocalBackend` with an arbitrary random generator.
-/

namespace PDP

/-- The backend operations that bounding uses and whose result is not determined by the input alone
(`pipeline_backend.py:88-135`).  `map`, `map_tuple`, `map_values`, `flat_map`, `filter` are list
functions.  `choose` is `sampling_utils.choose_from_list_without_replacement` as called inside a
`map_values` for the element with key `k`. -/
structure Backend where
  groupByKey : {K V : Type} → [DecidableEq K] → List (K × V) → List (K × List V)
  sampleFixedPerKey : {K V : Type} → [DecidableEq K] → (stage : String) → List (K × V) → ℕ →
    List (K × List V)
  choose : {K V : Type} → (stage : String) → K → List V → ℕ → List V

/-- Contract of the backend operations, for every random outcome.  `n ≥ 1` in the sampling laws is
what parameter validation guarantees (`aggregate_params.py:258-275`). -/
structure Backend.Lawful (B : Backend) : Prop where
  group : ∀ {K V : Type} [DecidableEq K] (col : List (K × V)), IsGrouping col (B.groupByKey col)
  sample : ∀ {K V : Type} [DecidableEq K] (stage : String) (col : List (K × V)) (n : ℕ), 1 ≤ n →
    IsSampling n col (B.sampleFixedPerKey stage col n)
  choose : ∀ {K V : Type} (stage : String) (k : K) (l : List V) (n : ℕ), 1 ≤ n →
    (B.choose stage k l n).Subperm l ∧ (B.choose stage k l n).length = min n l.length

/-- The groups and random choices of some keys do not depend on the presence of other keys (a sample
for a key is drawn from that key's values only); used to compare the runs on two datasets under the
same random outcomes per key. -/
structure Backend.KeyLocal (B : Backend) : Prop where
  group : ∀ {K V : Type} [DecidableEq K] (S : K → Bool) (col : List (K × V)),
    B.groupByKey (col.filter fun e => S e.1) = (B.groupByKey col).filter fun e => S e.1
  sample : ∀ {K V : Type} [DecidableEq K] (S : K → Bool) (stage : String) (col : List (K × V)) (n : ℕ),
    B.sampleFixedPerKey stage (col.filter fun e => S e.1) n
      = (B.sampleFixedPerKey stage col n).filter fun e => S e.1

/-! ### `LocalBackend` -/

/-- Results of `np.random.choice(range(len), n, replace=False)` at each call: indexed by stage and key. -/
structure Rng where
  pick : {K : Type} → (stage : String) → K → (len n : ℕ) → List ℕ
  nodup : ∀ {K : Type} (stage : String) (k : K) (len n : ℕ), (pick stage k len n).Nodup
  lt : ∀ {K : Type} (stage : String) (k : K) (len n : ℕ), ∀ i ∈ pick stage k len n, i < len
  length : ∀ {K : Type} (stage : String) (k : K) (len n : ℕ), n ≤ len → (pick stage k len n).length = n

/-- `[values[i] for i in sampled_indices]`. -/
def takeIndices {V : Type} (l : List V) (idx : List ℕ) : List V := idx.filterMap fun i => l[i]?

/-- `sampling_utils.py:19-29` `choose_from_list_without_replacement`. -/
def chooseFromList (rng : Rng) {K V : Type} (stage : String) (k : K) (l : List V) (n : ℕ) : List V :=
  if l.length ≤ n then l else takeIndices l (rng.pick stage k l.length n)

/-- `pipeline_backend.py:531-547` `LocalBackend.sample_fixed_per_key`. -/
def localSample (rng : Rng) {K V : Type} [DecidableEq K] (stage : String) (col : List (K × V)) (n : ℕ) :
    List (K × List V) :=
  (dictGroup col).map fun e =>
    (e.1, if e.2.length > n then takeIndices e.2 (rng.pick stage e.1 e.2.length n) else e.2)

/-- `pipeline_backend.py:477-583` `LocalBackend`.  Laziness of generators is not modelled. -/
def localBackend (rng : Rng) : Backend where
  groupByKey := dictGroup
  sampleFixedPerKey := localSample rng
  choose := chooseFromList rng

/-! ### Bounders -/

variable {P K V A : Type} [DecidableEq P] [DecidableEq K]

/-- `contribution_bounders.py:62-111` `SamplingCrossAndPerPartitionContributionBounder`. -/
def boundCrossAndPer (B : Backend) (l0 linf : ℕ) (agg : List V → A) (col : List (P × K × V)) :
    List ((P × K) × A) :=
  let col := col.map fun r => ((r.1, r.2.1), r.2.2)
  let col := B.sampleFixedPerKey "Sample per (privacy_id, partition_key)" col linf
  let col := col.map fun e => (e.1, agg e.2)
  let col := col.map fun e => (e.1.1, (e.1.2, e.2))
  let col := B.sampleFixedPerKey "Sample per privacy_id" col l0
  col.flatMap fun e => e.2.map fun x => ((e.1, x.1), x.2)

/-- `contribution_bounders.py:249-276` `collect_values_per_partition_key_per_privacy_id`. -/
def collectPerPartition (col : List (P × List (K × V))) : List (P × List (K × List V)) :=
  col.map fun e => (e.1, dictGroup e.2)

/-- `contribution_bounders.py:114-156` `SamplingPerPrivacyIdContributionBounder`. -/
def boundPerId (B : Backend) (m : ℕ) (agg : List V → A) (col : List (P × K × V)) :
    List ((P × K) × A) :=
  let col := col.map fun r => (r.1, (r.2.1, r.2.2))
  let col := B.sampleFixedPerKey "Sample per privacy_id" col m
  let col := collectPerPartition col
  let col := col.flatMap fun e => e.2.map fun x => ((e.1, x.1), x.2)
  col.map fun e => (e.1, agg e.2)

/-- `contribution_bounders.py:159-201` `SamplingCrossPartitionContributionBounder`. -/
def boundCross (B : Backend) (l0 : ℕ) (agg : List V → A) (col : List (P × K × V)) :
    List ((P × K) × A) :=
  let col := col.map fun r => (r.1, (r.2.1, r.2.2))
  let col := B.groupByKey col
  let col := collectPerPartition col
  let col := col.map fun e => (e.1, B.choose "Sample" e.1 e.2 l0)
  let col := col.flatMap fun e => e.2.map fun x => ((e.1, x.1), x.2)
  col.map fun e => (e.1, agg e.2)

/-- `contribution_bounders.py:204-230` `LinfSampler`. -/
def boundLinf (B : Backend) (linf : ℕ) (agg : List V → A) (col : List (P × K × V)) :
    List ((P × K) × A) :=
  let col := col.map fun r => ((r.1, r.2.1), r.2.2)
  let col := B.sampleFixedPerKey "Sample per (privacy_id, partition_key)" col linf
  col.map fun e => (e.1, agg e.2)

/-- `contribution_bounders.py:233-246` `NoOpSampler`. -/
def boundNoOp (B : Backend) (agg : List V → A) (col : List (P × K × V)) : List ((P × K) × A) :=
  let col := col.map fun r => ((r.1, r.2.1), r.2.2)
  let col := B.groupByKey col
  col.map fun e => (e.1, agg e.2)

end PDP
