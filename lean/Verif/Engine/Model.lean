import Verif.Bounding.Props
import Verif.Engine.CombinersProps

/-!
# Model of `pipeline_dp/dp_engine.py`: the computational graph up to noise

Rows are triples (privacy id, partition key, value), the output of `_extract_columns`
(`dp_engine.py:404-417`); the extractors themselves are arbitrary user functions.  Checks of argument
types, report generation and annotations are not modelled here.
-/

namespace PDP.Engine

open PDP

variable {P K V A : Type} [DecidableEq P] [DecidableEq K]

/-- The contribution bounders of `contribution_bounders.py` with the parameters they read. -/
inductive Bounder where
  | perId (m : ℕ)
  | crossAndPer (l0 linf : ℕ)
  | cross (l0 : ℕ)
  | linf (linf : ℕ)
  | noOp
  deriving DecidableEq, Repr

/-- An integer parameter used as a sample size; `None` fails. -/
def natArg (x : Option ℕ) : Except Err ℕ :=
  match x with
  | none => .error .typeError
  | some v => .ok v

/-- `dp_engine.py:382-402` `_create_contribution_bounder`. -/
def selectBounder (p : Params) (perPartitionSampling : Bool) : Except Err Bounder := do
  if p.maxContributions.getD 0 ≠ 0 then
    let m ← natArg p.maxContributions
    return .perId m
  if p.performCross then
    if perPartitionSampling then
      let linf ← natArg p.maxPerPartition
      let l0 ← natArg p.maxPartitions
      return .crossAndPer l0 linf
    let l0 ← natArg p.maxPartitions
    return .cross l0
  if perPartitionSampling then
    let linf ← natArg p.maxPerPartition
    return .linf linf
  return .noOp

/-- `bound_contributions` of the bounder. -/
def Bounder.run (B : Backend) (b : Bounder) (agg : List V → A) (col : List (P × K × V)) :
    List ((P × K) × A) :=
  match b with
  | .perId m => boundPerId B m agg col
  | .crossAndPer a b => boundCrossAndPer B a b agg col
  | .cross a => boundCross B a agg col
  | .linf b => boundLinf B b agg col
  | .noOp => boundNoOp B agg col

/-- `dp_engine.py:123-131` with `_drop_partitions` (`292-298`): rows of non-public partitions are
dropped. -/
def dropPartitions (p : Params) (pub : Option (List K)) (col : List (P × K × V)) : List (P × K × V) :=
  match pub with
  | some ps => if p.publicFiltered then col else col.filter fun r => r.2.1 ∈ ps
  | none => col

/-- `dp_engine.py:132-151`: bounding and accumulators, with the privacy id removed; or one
accumulator per row if the bounds are already enforced. -/
def dataAccumulators (B : Backend) (p : Params) (sampling : Bool) (create : List V → A)
    (pub : Option (List K)) (col : List (P × K × V)) : Except Err (List (K × A)) := do
  let col := dropPartitions p pub col
  if p.boundsEnforced then
    return (col.map fun r => r.2).map fun e => (e.1, create [e.2])
  else
    let b ← selectBounder p sampling
    return (b.run B create col).map fun e => (e.1.2, e.2)

/-- `dp_engine.py:153-155` with `_add_empty_public_partitions` (`300-315`).  (`if public_partitions:` is
false for an empty list, when there is nothing to add.) -/
def addEmptyPublic (create : List V → A) (pub : Option (List K)) (col : List (K × A)) : List (K × A) :=
  match pub with
  | some ps => col ++ ps.map fun k => (k, create [])
  | none => col

/-- `dp_engine.py:123-156`. -/
def accumulators (B : Backend) (p : Params) (sampling : Bool) (create : List V → A)
    (pub : Option (List K)) (col : List (P × K × V)) : Except Err (List (K × A)) := do
  let d ← dataAccumulators B p sampling create pub col
  return addEmptyPublic create pub d

/-- Contract of `combine_accumulators_per_key` (`pipeline_backend.py:141-154`): one entry per key, the
merge of the accumulators of the key in some order and tree. -/
structure IsCombine (merge : A → A → A) (col out : List (K × A)) : Prop where
  nodup : (out.map Prod.fst).Nodup
  keys : ∀ k, k ∈ out.map Prod.fst ↔ k ∈ col.map Prod.fst
  values : ∀ e ∈ out, ∃ t : MergeTree A, t.leaves.Perm (valuesOf e.1 col) ∧ e.2 = t.eval merge

/-- `pipeline_backend.py:555-565` `LocalBackend.combine_accumulators_per_key`. -/
def localCombine (merge : A → A → A) (col : List (K × A)) : List (K × A) :=
  (dictGroup col).filterMap fun e => (reduce merge e.2).map fun a => (e.1, a)

/-- `dp_engine.py:348-349` `divide_and_round_up` (Python integer division of non-negative numbers). -/
def divideAndRoundUp (a b : ℕ) : ℕ := (a + b - 1) / b

/-- `dp_engine.py:162-178`: whether private partition selection is performed. -/
def selectsPrivately (p : Params) (pub : Option (List K)) : Bool :=
  pub.isNone && !p.postThresholding && !p.publicFiltered

/-- `dp_engine.py:166-174`: `max_rows_per_privacy_id`. -/
def maxRowsPerId (p : Params) : Except Err ℕ :=
  if p.boundsEnforced then
    if p.maxContributions.getD 0 ≠ 0 then natArg p.maxContributions else natArg p.maxPerPartition
  else .ok 1

/-- `dp_engine.py:337-360` `filter_fn` applied to the collection.  `keep k n` is the (random) decision
of the PyDP selector for the partition `k` with `n` privacy ids. -/
def selectPrivate {cs : List (Combiner V)} (keep : K → ℕ → Bool) (maxRows : ℕ)
    (col : List (K × (Combiner.compound cs).Acc)) : List (K × (Combiner.compound cs).Acc) :=
  col.filter fun e => keep e.1 (divideAndRoundUp (Combiner.rowCount e.2) maxRows)

/-- `dp_engine.py:109-179`: the compound accumulators of the partitions for which metrics are
computed.  `comb` is the backend's `combine_accumulators_per_key`. -/
def partitionAccumulators (B : Backend)
    (cs : List (Combiner V)) (comb : List (K × (Combiner.compound cs).Acc) →
      List (K × (Combiner.compound cs).Acc))
    (keep : K → ℕ → Bool) (p : Params) (pub : Option (List K))
    (col : List (P × K × V)) : Except Err (List (K × (Combiner.compound cs).Acc)) := do
  let accs ← accumulators B p (Combiner.compound cs).sampling (Combiner.compound cs).create pub col
  let accs := comb accs
  if selectsPrivately p pub then
    let maxRows ← maxRowsPerId p
    return selectPrivate keep maxRows accs
  else return accs

/-- `dp_engine.py:256-262` `sample_unique_elements_fn`; `list(set(pks))` is the distinct elements in an
order chosen by the backend's hash, here an arbitrary permutation inside `choose`. -/
def sampleUnique (B : Backend) (l0 : ℕ) (e : P × List K) : List (P × K) :=
  (B.choose "Sample cross-partition contributions" e.1 e.2.dedup l0).map fun k => (e.1, k)

/-- `dp_engine.py:236-290` `_select_partitions`. -/
def selectPartitions (B : Backend)
    (comb : List (K × (Combiner.compound ([] : List (Combiner Unit))).Acc) →
      List (K × (Combiner.compound ([] : List (Combiner Unit))).Acc))
    (keep : K → ℕ → Bool) (l0 : ℕ) (col : List (P × K)) : List K :=
  let col := B.groupByKey col
  let col := col.flatMap (sampleUnique B l0)
  let col := col.map fun e => (e.2, (Combiner.compound ([] : List (Combiner Unit))).create [])
  let col := comb col
  let col := selectPrivate keep 1 col
  col.map Prod.fst

end PDP.Engine
