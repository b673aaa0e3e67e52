import Verif.Engine.Release
import Verif.Engine.Combiners
import Verif.Engine.Partitions
import Verif.Lib.Group
import Mathlib.Tactic.NormNum

/-!
# Private collections: `pipeline_dp/private_beam.py`, `pipeline_dp/private_spark.py`

A `PCollection` or RDD is a list of rows. A private collection has rows (privacy id, element). Elements are Python objects of one
type `V`; user functions are arbitrary total functions on them.
-/

set_option linter.unusedVariables false

namespace PDP.Private

open PDP.Engine (Params Metric NoiseKind Part Request createCompound releasedNames)

/-! ### Model: private collections -/

/-- A private collection and the (identity of the) accountant it was made with (`private_beam.py:78-81`,
`private_spark.py:32-38`). -/
structure Coll (P V A : Type) where
  rows : List (P × V)
  accountant : A

/-- `MakePrivate.expand` (`private_beam.py:108-112`); `PrivateRDD.__init__` with an extractor (`private_spark.py:32-38`). -/
def makePrivate {P V A : Type} (extract : V → P) (a : A) (raw : List V) : Coll P V A :=
  ⟨raw.map fun x => (extract x, x), a⟩

/-- User operations which stay private. -/
inductive Op (V : Type) where
  | map (f : V → V)
  | flatMap (f : V → List V)

/-- `Map.expand` (`private_beam.py:467-469`: `map_values`), `FlatMap.expand` (`private_beam.py:479-488`: a generator of
`(key, value)` for the values of the row); `__or__` (`private_beam.py:83-94`) keeps the accountant. -/
def beamStep {P V A : Type} (c : Coll P V A) : Op V → Coll P V A
  | .map f => ⟨c.rows.map fun r => (r.1, f r.2), c.accountant⟩
  | .flatMap f => ⟨c.rows.flatMap fun row =>
      let key := row.1
      let values := f row.2
      values.map fun value => (key, value), c.accountant⟩

/-- RDD `mapValues` and `flatMapValues` (contract of Spark). -/
def mapValues {P V : Type} (f : V → V) (rdd : List (P × V)) : List (P × V) := rdd.map fun r => (r.1, f r.2)

def flatMapValues {P V : Type} (f : V → List V) (rdd : List (P × V)) : List (P × V) :=
  rdd.flatMap fun r => (f r.2).map fun y => (r.1, y)

/-- `PrivateRDD.map`, `PrivateRDD.flat_map` (`private_spark.py:40-60`). -/
def sparkStep {P V A : Type} (c : Coll P V A) : Op V → Coll P V A
  | .map f => ⟨mapValues f c.rows, c.accountant⟩
  | .flatMap f => ⟨flatMapValues f c.rows, c.accountant⟩

/-- `DPEngine._extract_columns` (`dp_engine.py:404-417`) with the extractors which the wrappers build: the privacy id is `x[0]`, or
absent (`None`) if there is no extractor; the user's extractors see `x[1]`. -/
def extractColumns {P V K X : Type} (useIds : Bool) (part : V → K) (value : V → X) (rows : List (P × V)) :
    List (Option P × K × X) :=
  rows.map fun x => (if useIds then some x.1 else none, part x.2, value x.2)

/-! ### Specification -/

/-- Elements derived from one element by a chain of operations. -/
def derive {V : Type} : List (Op V) → V → List V
  | [], x => [x]
  | .map f :: ops, x => derive ops (f x)
  | .flatMap f :: ops, x => (f x).flatMap (derive ops)

/-! ### Properties -/

theorem beam_rows {P V A : Type} : ∀ (ops : List (Op V)) (c : Coll P V A),
    (ops.foldl beamStep c).rows = c.rows.flatMap (fun r => (derive ops r.2).map fun y => (r.1, y)) ∧
      (ops.foldl beamStep c).accountant = c.accountant
  | [], c => by simp [derive]
  | .map f :: ops, c => by
    obtain ⟨h1, h2⟩ := beam_rows ops (beamStep c (.map f))
    refine ⟨?_, h2⟩
    rw [List.foldl_cons, h1]
    simp [beamStep, derive, List.flatMap_map]
  | .flatMap f :: ops, c => by
    obtain ⟨h1, h2⟩ := beam_rows ops (beamStep c (.flatMap f))
    refine ⟨?_, h2⟩
    rw [List.foldl_cons, h1]
    simp [beamStep, derive, List.flatMap_assoc, List.flatMap_map, List.map_flatMap]

theorem spark_eq_beam {P V A : Type} (c : Coll P V A) (o : Op V) : sparkStep c o = beamStep c o := by
  cases o <;> rfl

theorem spark_run {P V A : Type} (ops : List (Op V)) (c : Coll P V A) : ops.foldl sparkStep c = ops.foldl beamStep c := by
  have : (sparkStep : Coll P V A → Op V → Coll P V A) = beamStep := by funext c o; exact spark_eq_beam c o
  rw [this]

/-- **C49.** After any chain of `map` and `flat_map` on a private collection, Beam or Spark, the rows are exactly the elements derived
from the elements of the input, each with the privacy id of the input element it was derived from; and every collection of the chain
spends from the accountant the first one was made with. -/
theorem C49_lineage {P V A : Type} (ops : List (Op V)) (extract : V → P) (a : A) (raw : List V) :
    (ops.foldl beamStep (makePrivate extract a raw)).rows
        = raw.flatMap (fun x => (derive ops x).map fun y => (extract x, y)) ∧
    (ops.foldl sparkStep (makePrivate extract a raw)).rows
        = raw.flatMap (fun x => (derive ops x).map fun y => (extract x, y)) ∧
    (ops.foldl beamStep (makePrivate extract a raw)).accountant = a ∧
    (ops.foldl sparkStep (makePrivate extract a raw)).accountant = a := by
  obtain ⟨h1, h2⟩ := beam_rows ops (makePrivate extract a raw)
  rw [spark_run]
  have : (ops.foldl beamStep (makePrivate extract a raw)).rows
        = raw.flatMap (fun x => (derive ops x).map fun y => (extract x, y)) := by
    rw [h1]; simp [makePrivate, List.flatMap_map]
  exact ⟨this, this, h2, h2⟩

/-- **C49.** Neighbouring inputs stay neighbouring: removing all raw elements of a privacy unit and then running any chain and the
column extraction of an aggregation gives the same rows as running on everything and removing the rows of that unit. -/
theorem C49_neighbours {P V A K X : Type} [DecidableEq P] (ops : List (Op V)) (extract : V → P) (a : A) (raw : List V) (u : P)
    (part : V → K) (value : V → X) :
    extractColumns true part value (ops.foldl beamStep (makePrivate extract a (raw.filter fun x => extract x ≠ u))).rows
      = (extractColumns true part value (ops.foldl beamStep (makePrivate extract a raw)).rows).filter fun r => r.1 ≠ some u := by
  rw [(C49_lineage ops extract a _).1, (C49_lineage ops extract a _).1]
  unfold extractColumns
  induction raw with
  | nil => rfl
  | cons x raw ih =>
    rw [List.flatMap_cons, List.map_append, List.filter_append, ← ih]
    by_cases h : extract x = u
    · rw [List.filter_cons_of_neg (by simp [h])]
      have : (List.map (fun x : P × V => ((if True then some x.1 else none), part x.2, value x.2))
          (List.map (fun y => (extract x, y)) (derive ops x))).filter (fun r => decide (r.1 ≠ some u)) = [] := by
        rw [List.filter_eq_nil_iff]
        intro r hr
        simp only [List.map_map, List.mem_map, Function.comp] at hr
        obtain ⟨y, -, rfl⟩ := hr
        simp [h]
      simp only [if_true] at this ⊢
      rw [this, List.nil_append]
    · rw [List.filter_cons_of_pos (by simp [h]), List.flatMap_cons, List.map_append]
      congr 1
      symm
      rw [List.filter_eq_self]
      intro r hr
      simp only [List.map_map, List.mem_map, Function.comp] at hr
      obtain ⟨y, -, rfl⟩ := hr
      simp [h]

/-- Words of two users, split and mapped: the ids follow. -/
example : ([Op.flatMap (fun n : ℕ × ℕ => List.replicate n.2 n), Op.map fun n => (n.1 + 100, n.2 + 1)].foldl beamStep
      (makePrivate (A := Unit) (fun n : ℕ × ℕ => n.1) () [(1, 2), (2, 0), (3, 1)])).rows
    = [(1, (101, 3)), (1, (101, 3)), (3, (103, 2))] := by decide +kernel

/-! ### Model: parameters of the wrappers -/

/-- The aggregations which have wrappers. -/
inductive Kind where
  | variance | mean | sum | count | privacyIdCount
  deriving DecidableEq

/-- `VarianceParams`, `MeanParams`, `SumParams`, `CountParams`, `PrivacyIdCountParams` (`aggregate_params.py:429-644`) without the
extractors. The fields which a class does not have (value bounds for the counts, contributions per partition for the privacy id
count) are not read by its wrappers. -/
structure MetricParams where
  maxPartitions : ℕ
  maxPerPartition : ℕ
  minValue : ℚ
  maxValue : ℚ
  weight : ℚ := 1
  noise : NoiseKind := .laplace
  enforced : Bool := false
  preThreshold : Option ℕ := none

/-- The `AggregateParams` built by the Beam transforms (`private_beam.py:141-177, 206-241, 270-305, 334-369, 398-431`). -/
def beamParams (k : Kind) (m : MetricParams) : Params :=
  match k with
  | .variance => {
      noiseKind := m.noise, metrics := [.variance], maxPartitions := some m.maxPartitions,
      maxPerPartition := some m.maxPerPartition, minValue := some m.minValue, maxValue := some m.maxValue,
      preThreshold := m.preThreshold }
  | .mean => {
      noiseKind := m.noise, metrics := [.mean], maxPartitions := some m.maxPartitions,
      maxPerPartition := some m.maxPerPartition, minValue := some m.minValue, maxValue := some m.maxValue,
      preThreshold := m.preThreshold }
  | .sum => {
      noiseKind := m.noise, metrics := [.sum], maxPartitions := some m.maxPartitions,
      maxPerPartition := some m.maxPerPartition, minValue := some m.minValue, maxValue := some m.maxValue,
      preThreshold := m.preThreshold }
  | .count => {
      noiseKind := m.noise, metrics := [.count], maxPartitions := some m.maxPartitions,
      maxPerPartition := some m.maxPerPartition, preThreshold := m.preThreshold }
  | .privacyIdCount => {
      noiseKind := m.noise, metrics := [.privacyIdCount], maxPartitions := some m.maxPartitions,
      maxPerPartition := some 1, preThreshold := m.preThreshold }

/-- The `AggregateParams` built by the methods of `PrivateRDD` (`private_spark.py:85-96, 144-154, 200-210, 256-264, 311-318`). -/
def sparkParams (k : Kind) (m : MetricParams) : Params :=
  match k with
  | .variance => {
      noiseKind := m.noise, metrics := [.variance], maxPartitions := some m.maxPartitions,
      maxPerPartition := some m.maxPerPartition, minValue := some m.minValue, maxValue := some m.maxValue,
      budgetWeight := m.weight, boundsEnforced := m.enforced }
  | .mean => {
      noiseKind := m.noise, metrics := [.mean], maxPartitions := some m.maxPartitions,
      maxPerPartition := some m.maxPerPartition, minValue := some m.minValue, maxValue := some m.maxValue,
      budgetWeight := m.weight, boundsEnforced := m.enforced }
  | .sum => {
      noiseKind := m.noise, metrics := [.sum], maxPartitions := some m.maxPartitions,
      maxPerPartition := some m.maxPerPartition, minValue := some m.minValue, maxValue := some m.maxValue,
      budgetWeight := m.weight, boundsEnforced := m.enforced }
  | .count => {
      noiseKind := m.noise, metrics := [.count], maxPartitions := some m.maxPartitions,
      maxPerPartition := some m.maxPerPartition, budgetWeight := m.weight, boundsEnforced := m.enforced }
  | .privacyIdCount => {
      noiseKind := m.noise, metrics := [.privacyIdCount], maxPartitions := some m.maxPartitions,
      maxPerPartition := some 1, boundsEnforced := m.enforced }

/-- Whether the wrappers pass a privacy id extractor: always in Beam, unless the bounds are declared enforced in Spark
(`private_spark.py:368-374`). -/
def sparkUsesIds (k : Kind) (m : MetricParams) : Bool := !(sparkParams k m).boundsEnforced

/-- `SelectPartitionsParams` (`aggregate_params.py:398-425`). -/
structure SelectParams where
  maxPartitions : ℕ
  weight : ℚ := 1
  strategy : PDP.Engine.Strategy := .truncatedGeometric
  preThreshold : Option ℕ := none
  deriving DecidableEq

/-- `PrivateRDD.select_partitions` (`private_spark.py:358-360`). -/
def sparkSelect (s : SelectParams) : SelectParams := { maxPartitions := s.maxPartitions }

/-- `SelectPartitions.expand` (`private_beam.py:450-457`). -/
def beamSelect (s : SelectParams) : SelectParams := s

/-! ### Specification -/

/-- The metric of an aggregation, and whether it takes value bounds. -/
def Kind.metric : Kind → Metric
  | .variance => .variance
  | .mean => .mean
  | .sum => .sum
  | .count => .count
  | .privacyIdCount => .privacyIdCount

def Kind.usesValues : Kind → Bool
  | .variance | .mean | .sum => true
  | .count | .privacyIdCount => false

/-- What the user asked for, as parameters of a direct `DPEngine.aggregate` call: every field is used. -/
def requested (k : Kind) (m : MetricParams) : Params where
  metrics := [k.metric]
  noiseKind := m.noise
  maxPartitions := some m.maxPartitions
  maxPerPartition := some (if k = .privacyIdCount then 1 else m.maxPerPartition)
  budgetWeight := m.weight
  minValue := if k.usesValues then some m.minValue else none
  maxValue := if k.usesValues then some m.maxValue else none
  boundsEnforced := m.enforced
  preThreshold := m.preThreshold

/-! ### Properties -/

/-- **C50.** The Beam transforms ask the engine for what the user asked for, except that `budget_weight` becomes 1 and
`contribution_bounds_already_enforced` becomes false. -/
theorem C50_beam (k : Kind) (m : MetricParams) :
    beamParams k m = { requested k m with budgetWeight := 1, boundsEnforced := false } := by
  cases k <;> rfl

/-- **C50.** The Spark methods ask for what the user asked for, except that `pre_threshold` is dropped, and for the privacy id count
also `budget_weight`. -/
theorem C50_spark (k : Kind) (m : MetricParams) :
    sparkParams k m = { requested k m with
      preThreshold := none, budgetWeight := if k = .privacyIdCount then 1 else m.weight } := by
  cases k <;> rfl

/-- **C50, defect.** So a Beam transform does what the user asked for exactly if these two fields have their defaults. -/
theorem C50_beam_faithful_iff (k : Kind) (m : MetricParams) :
    beamParams k m = requested k m ↔ m.weight = 1 ∧ m.enforced = false := by
  rw [C50_beam]
  constructor
  · intro h
    exact ⟨(congrArg Params.budgetWeight h).symm, (congrArg Params.boundsEnforced h).symm⟩
  · rintro ⟨h1, h2⟩
    unfold requested; rw [h1, h2]

/-- **C50, defect.** A Spark method does what the user asked for exactly if there is no `pre_threshold` and, for the privacy id count,
the weight is 1. -/
theorem C50_spark_faithful_iff (k : Kind) (m : MetricParams) :
    sparkParams k m = requested k m ↔ m.preThreshold = none ∧ (k = .privacyIdCount → m.weight = 1) := by
  rw [C50_spark]
  constructor
  · intro h
    refine ⟨(congrArg Params.preThreshold h).symm, fun hk => ?_⟩
    subst hk
    exact (congrArg Params.budgetWeight h).symm
  · rintro ⟨h1, h2⟩
    by_cases hk : k = .privacyIdCount
    · simp only [requested, h1, h2 hk, if_pos hk]
    · simp only [requested, h1, if_neg hk]

/-- **C50, defect.** Partition selection: Beam passes the user's parameters, Spark only the contribution bound. -/
theorem C50_select (s : SelectParams) :
    beamSelect s = s ∧
      (sparkSelect s = s ↔ s.weight = 1 ∧ s.strategy = .truncatedGeometric ∧ s.preThreshold = none) := by
  refine ⟨rfl, ?_⟩
  obtain ⟨a, b, c, d⟩ := s
  simp [sparkSelect, eq_comm]

/-- **C50, effect.** Beam aggregations of any weights make the same budget requests: weight 1 each. -/
theorem C50_beam_weight_effect (fmt : ℚ → String) (k : Kind) (m : MetricParams) (rs : List Request) :
    ∃ new, (createCompound fmt (beamParams k m) rs).2 = rs ++ new ∧ new ≠ [] ∧ ∀ r ∈ new, r.weight = 1 := by
  cases k
  · exact ⟨[⟨m.noise.mechanism, 1⟩], rfl, by simp, by simp⟩
  · refine ⟨[⟨m.noise.mechanism, 1⟩, ⟨m.noise.mechanism, 1⟩], ?_, by simp, by simp⟩
    show (rs ++ [_]) ++ [_] = _
    rw [List.append_assoc]; rfl
  · exact ⟨[⟨m.noise.mechanism, 1⟩], rfl, by simp, by simp⟩
  · exact ⟨[⟨m.noise.mechanism, 1⟩], rfl, by simp, by simp⟩
  · exact ⟨[⟨m.noise.mechanism, 1⟩], rfl, by simp, by simp⟩

/-- **C50.** The attribute which a wrapper reads from the result of the engine is its only field. -/
theorem C50_single_metric (fmt : ℚ → String) (k : Kind) (m : MetricParams) (rs : List Request) :
    (∃ parts, (createCompound fmt (beamParams k m) rs).1 = .ok parts ∧ releasedNames fmt parts = .ok [k.metric.name fmt]) ∧
    ∃ parts, (createCompound fmt (sparkParams k m) rs).1 = .ok parts ∧ releasedNames fmt parts = .ok [k.metric.name fmt] := by
  cases k
  · exact ⟨⟨[.variance rs.length ["variance"]], rfl, rfl⟩, ⟨[.variance rs.length ["variance"]], rfl, rfl⟩⟩
  · exact ⟨⟨[.mean rs.length (rs ++ [(⟨m.noise.mechanism, 1⟩ : Request)]).length ["mean"]], rfl, rfl⟩,
      ⟨[.mean rs.length (rs ++ [(⟨m.noise.mechanism, m.weight⟩ : Request)]).length ["mean"]], rfl, rfl⟩⟩
  · exact ⟨⟨[.sum rs.length], rfl, rfl⟩, ⟨[.sum rs.length], rfl, rfl⟩⟩
  · exact ⟨⟨[.count rs.length], rfl, rfl⟩, ⟨[.count rs.length], rfl, rfl⟩⟩
  · exact ⟨⟨[.privacyIdCount rs.length], rfl, rfl⟩, ⟨[.privacyIdCount rs.length], rfl, rfl⟩⟩

/-- A count with weight 5 on Beam, and one with a pre-threshold on Spark, are not what was asked for. -/
example : beamParams .count ⟨2, 3, 0, 0, 5, .gaussian, false, some 10⟩ ≠ requested .count ⟨2, 3, 0, 0, 5, .gaussian, false, some 10⟩ ∧
    sparkParams .sum ⟨2, 3, 0, 1, 5, .gaussian, true, some 10⟩ ≠ requested .sum ⟨2, 3, 0, 1, 5, .gaussian, true, some 10⟩ := by
  constructor
  · rw [Ne, C50_beam_faithful_iff]; norm_num
  · rw [Ne, C50_spark_faithful_iff]; simp

/-- **C50.** With an extractor every row carries the privacy id of its element; without one (bounds already enforced) every
row has no id, and the rows are the same whoever the elements belong to. -/
theorem C50_extracted_ids {P V K X : Type} (part : V → K) (value : V → X) (rows rows' : List (P × V)) :
    (extractColumns true part value rows).map (fun r => r.1) = rows.map (fun x => some x.1) ∧
    (∀ r ∈ extractColumns false part value rows, r.1 = none) ∧
    (rows.map Prod.snd = rows'.map Prod.snd → extractColumns false part value rows = extractColumns false part value rows') := by
  refine ⟨by simp [extractColumns], ?_, fun h => ?_⟩
  · intro r hr
    obtain ⟨x, -, rfl⟩ := List.mem_map.mp hr
    rfl
  have : ∀ rs : List (P × V), extractColumns false part value rs = (rs.map Prod.snd).map fun v => ((none : Option P), part v, value v) := by
    intro rs; simp [extractColumns]
  rw [this, this, h]

/-! ### `CombinePerKey` -/

/-- A user's `PrivateCombineFn` (`private_beam.py:491-548`) without the private output. -/
structure CombineFn (V A : Type) where
  create : A
  addInput : A → V → A
  merge : List A → A

/-- `_CombineFnCombiner` (`private_beam.py:551-572`). -/
def combineFnCombiner {V A : Type} (f : CombineFn V A) : PDP.Engine.Combiner V where
  Acc := A
  create values := values.foldl f.addInput f.create
  merge a b := f.merge [a, b]
  sampling := true

/-- `CombinePerKeyParams` (`private_beam.py:587-605`). -/
structure CombinePerKeyParams (K : Type) where
  maxPartitions : ℕ
  maxPerPartition : ℕ
  weight : ℚ := 1
  publicPartitions : Option (List K) := none

/-- What `CombinePerKey.expand` passes to `DPEngine.aggregate` (`private_beam.py:627-645`): parameters and public partitions. -/
def combinePerKey {K : Type} (p : CombinePerKeyParams K) : Params × Option (List K) :=
  ({ metrics := [], maxPartitions := some p.maxPartitions, maxPerPartition := some p.maxPerPartition }, none)

/-- What the documentation of `CombinePerKeyParams` promises. -/
def combineRequested {K : Type} (p : CombinePerKeyParams K) : Params × Option (List K) :=
  ({ metrics := [], maxPartitions := some p.maxPartitions, maxPerPartition := some p.maxPerPartition, budgetWeight := p.weight },
    p.publicPartitions)

/-- **C50, defect.** `CombinePerKey` ignores the weight and the public partitions. -/
theorem C50_combine_per_key_iff {K : Type} (p : CombinePerKeyParams K) :
    combinePerKey p = combineRequested p ↔ p.weight = 1 ∧ p.publicPartitions = none := by
  constructor
  · intro h
    exact ⟨(congrArg (fun x => x.1.budgetWeight) h).symm, (congrArg Prod.snd h).symm⟩
  · rintro ⟨h1, h2⟩
    unfold combinePerKey combineRequested; rw [h1, h2]

/-- **C50.** If merging two accumulators is adding the inputs of the second to the first, then a partition's accumulator, merged by any
backend in any order, is the accumulator of all the values kept for the partition, whatever the way they were grouped. -/
theorem C50_combine_fn {V A : Type} (f : CombineFn V A)
    (hf : ∀ xs ys : List V, f.merge [xs.foldl f.addInput f.create, ys.foldl f.addInput f.create]
      = (xs ++ ys).foldl f.addInput f.create) (t : PDP.Engine.MergeTree (List V)) :
    (t.map (combineFnCombiner f).create).eval (combineFnCombiner f).merge = t.leaves.flatten.foldl f.addInput f.create := by
  induction t with
  | leaf vs => simp [PDP.Engine.MergeTree.map, PDP.Engine.MergeTree.eval, PDP.Engine.MergeTree.leaves, combineFnCombiner]
  | node l r hl hr =>
    simp only [PDP.Engine.MergeTree.map, PDP.Engine.MergeTree.eval, PDP.Engine.MergeTree.leaves, List.flatten_append]
    rw [hl, hr]
    exact hf _ _

/-- **C50.** Every accumulator of `CombinePerKey` is the user's function applied to at most `max_contributions_per_partition`
values of one privacy id in one partition, and each id has at most `max_partitions_contributed` of them. -/
theorem C50_combine_fn_inputs {P K V A : Type} [DecidableEq P] [DecidableEq K] (f : CombineFn V A) (B : Backend)
    (hB : B.Lawful) (p : CombinePerKeyParams K) (h0 : 1 ≤ p.maxPartitions) (hi : 1 ≤ p.maxPerPartition)
    (col : List (P × K × V)) :
    ∃ kept : List ((P × K) × List V),
      PDP.Engine.accumulators B (combinePerKey p).1 (combineFnCombiner f).sampling (combineFnCombiner f).create none col
        = .ok (kept.map fun e => (e.1.2, e.2.foldl f.addInput f.create)) ∧
      KeptFrom col kept ∧ (∀ e ∈ kept, e.2.length ≤ p.maxPerPartition) ∧
      ∀ u, (kept.filter fun e => e.1.1 = u).length ≤ p.maxPartitions := by
  obtain ⟨kept, h1, h2, h3, h4⟩ := C08_cross_and_per_partition_bounded B hB p.maxPartitions p.maxPerPartition h0 hi
    (combineFnCombiner f).create col
  refine ⟨kept, ?_, h2, fun e he => ?_, fun u => ?_⟩
  · show Except.ok ((boundCrossAndPer B p.maxPartitions p.maxPerPartition (combineFnCombiner f).create col).map
      fun e => (e.1.2, e.2)) = _
    rw [h1, List.map_map]; rfl
  · rw [h3 e he]; exact Nat.min_le_left _ _
  · rw [h4 u]; exact Nat.min_le_left _ _

/-- A clipped sum meets the hypothesis. -/
example : ∀ xs ys : List ℕ, (CombineFn.merge (V := ℕ) ⟨0, fun a v => a + min v 5, List.sum⟩
      [xs.foldl (fun a v => a + min v 5) 0, ys.foldl (fun a v => a + min v 5) 0])
    = (xs ++ ys).foldl (fun a v => a + min v 5) 0 := by
  intro xs ys
  have : ∀ (l : List ℕ) (a : ℕ), l.foldl (fun a v => a + min v 5) a = a + l.foldl (fun a v => a + min v 5) 0 := by
    intro l
    induction l with
    | nil => intro a; simp
    | cons x l ih => intro a; rw [List.foldl_cons, List.foldl_cons, ih, ih (0 + min x 5)]; omega
  rw [List.foldl_append, this ys (xs.foldl _ 0)]
  simp

end PDP.Private
