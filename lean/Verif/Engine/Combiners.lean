import Verif.Engine.Params
import Mathlib.Data.List.Basic
import Mathlib.Data.List.Perm.Basic
import Mathlib.Algebra.BigOperators.Group.List.Basic

/-!
# Model of `pipeline_dp/combiners.py`: accumulators

A combiner is its accumulator type with `create_accumulator` and `merge_accumulators`.  Numbers are
exact.  `compute_metrics` (noise) is modelled in `Release.lean`.
-/

namespace PDP.Engine

/-- `combiners.py:32-85` `Combiner`.  `sampling` is `expects_per_partition_sampling` (default `True`,
`combiners.py:76-85`). -/
structure Combiner (V : Type) where
  Acc : Type
  create : List V → Acc
  merge : Acc → Acc → Acc
  sampling : Bool := true

namespace Combiner

/-- `combiners.py:255-260` `CountCombiner`. -/
def count (V : Type) : Combiner V where
  Acc := ℕ
  create vs := vs.length
  merge a b := a + b

/-- `combiners.py:297-302, 324-325` `PrivacyIdCountCombiner`; `combiners.py:346-351, 377-378`
`PostAggregationThresholdingCombiner` has the same accumulators. -/
def privacyIdCount (V : Type) : Combiner V where
  Acc := ℕ
  create vs := if vs.isEmpty then 0 else 1
  merge a b := a + b
  sampling := false

/-- `combiners.py:406-414` `SumCombiner` with `min_value`/`max_value`: each value is clipped. -/
def sumPerValue (lo hi : ℚ) : Combiner ℚ where
  Acc := ℚ
  create vs := (vs.map (clip lo hi)).sum
  merge a b := a + b

/-- `combiners.py:406-414` `SumCombiner` with `min_sum_per_partition`/`max_sum_per_partition`: the sum is
clipped, and there is no sampling (`combiners.py:422-423`). -/
def sumPerPartition (lo hi : ℚ) : Combiner ℚ where
  Acc := ℚ
  create vs := clip lo hi vs.sum
  merge a b := a + b
  sampling := false

/-- `combiners.py:474-486` `MeanCombiner`. -/
def mean (lo hi : ℚ) : Combiner ℚ where
  Acc := ℕ × ℚ
  create vs := (vs.length, (vs.map fun v => clip lo hi v - middle lo hi).sum)
  merge a b := (a.1 + b.1, a.2 + b.2)

/-- `combiners.py:549-564` `VarianceCombiner`. -/
def variance (lo hi : ℚ) : Combiner ℚ where
  Acc := ℕ × ℚ × ℚ
  create vs := (vs.length, (vs.map fun v => clip lo hi v - middle lo hi).sum,
    (vs.map fun v => (clip lo hi v - middle lo hi) ^ 2).sum)
  merge a b := (a.1 + b.1, a.2.1 + b.2.1, a.2.2 + b.2.2)

/-- `combiners.py:603-620` `QuantileCombiner`.  The PyDP quantile tree is an abstract commutative
monoid `T` with one element `entry v` per inserted value (serialisation is the identity). -/
def quantile (T : Type) [AddCommMonoid T] (entry : ℚ → T) : Combiner ℚ where
  Acc := T
  create vs := vs.foldl (fun t v => t + entry v) 0
  merge a b := (0 + a) + b

/-- Accumulator of `VectorSumCombiner`: `error` stands for a raised `TypeError`, `empty` for `None`. -/
inductive VecAcc where
  | error
  | empty
  | vec (v : List ℚ)
  deriving DecidableEq, Repr

/-- The loop body of `combiners.py:814-824`. -/
def vecStep (n : ℕ) (acc : VecAcc) (v : List ℚ) : VecAcc :=
  match acc with
  | .error => .error
  | .empty => if v.length = n then .vec v else .error
  | .vec s => if v.length = n then .vec (List.zipWith (· + ·) s v) else .error

/-- `combiners.py:829` `array_sum1 + array_sum2`: `None` can not be added to an array (nor to `None`). -/
def vecMerge : VecAcc → VecAcc → VecAcc
  | .vec a, .vec b => .vec (List.zipWith (· + ·) a b)
  | _, _ => .error

/-- `combiners.py:811-829` `VectorSumCombiner`.  The in-place `+=` on the first array of a user (which
changes the caller's data) is not modelled. -/
def vectorSum (n : ℕ) : Combiner (List ℚ) where
  Acc := VecAcc
  create vs := vs.foldl (vecStep n) .empty
  merge := vecMerge

/-- The tuple of inner accumulators of `CompoundCombiner`. -/
def AccTuple {V : Type} : List (Combiner V) → Type
  | [] => Unit
  | c :: cs => c.Acc × AccTuple cs

def createTuple {V : Type} : (cs : List (Combiner V)) → List V → AccTuple cs
  | [], _ => ()
  | c :: cs, vs => (c.create vs, createTuple cs vs)

def mergeTuple {V : Type} : (cs : List (Combiner V)) → AccTuple cs → AccTuple cs → AccTuple cs
  | [], _, _ => ()
  | c :: cs, a, b => (c.merge a.1 b.1, mergeTuple cs a.2 b.2)

/-- `combiners.py:749-764, 796-797` `CompoundCombiner`: a row count and the inner accumulators. -/
def compound {V : Type} (cs : List (Combiner V)) : Combiner V where
  Acc := ℕ × AccTuple cs
  create vs := (1, createTuple cs vs)
  merge a b := (a.1 + b.1, mergeTuple cs a.2 b.2)
  sampling := cs.any fun c => c.sampling

/-- Component `i` of a tuple of accumulators. -/
def component {V : Type} : (cs : List (Combiner V)) → AccTuple cs → (i : Fin cs.length) → cs[i].Acc
  | _ :: _, a, ⟨0, _⟩ => a.1
  | _ :: cs, a, ⟨i + 1, h⟩ => component cs a.2 ⟨i, by simpa using h⟩

/-- The row count of a compound accumulator (`combiners.py:711-714`). -/
def rowCount {V : Type} {cs : List (Combiner V)} (a : (compound cs).Acc) : ℕ := a.1

/-- Inner accumulator `i` of a compound accumulator. -/
def inner {V : Type} {cs : List (Combiner V)} (i : Fin cs.length) (a : (compound cs).Acc) : cs[i].Acc :=
  component cs a.2 i

/-- Inner accumulator `i` of a compound accumulator, when combiner `i` is known to be `c`. -/
def readAs {V : Type} {cs : List (Combiner V)} (c : Combiner V) (i : Fin cs.length) (h : cs[i] = c)
    (a : (compound cs).Acc) : c.Acc := h ▸ inner i a

end Combiner

/-! ### How backends merge -/

/-- The order in which a backend merges accumulators: any binary tree. -/
inductive MergeTree (A : Type) where
  | leaf (a : A)
  | node (l r : MergeTree A)

namespace MergeTree

def leaves {A : Type} : MergeTree A → List A
  | leaf a => [a]
  | node l r => leaves l ++ leaves r

def eval {A : Type} (merge : A → A → A) : MergeTree A → A
  | leaf a => a
  | node l r => merge (eval merge l) (eval merge r)

def map {A B : Type} (f : A → B) : MergeTree A → MergeTree B
  | leaf a => leaf (f a)
  | node l r => node (map f l) (map f r)

end MergeTree

/-- `functools.reduce` on a non-empty list. -/
def reduce {A : Type} (merge : A → A → A) : List A → Option A
  | [] => none
  | a :: as => some (as.foldl merge a)

/-- `pipeline_backend.py:342-349` `BeamBackend.combine_accumulators_per_key.merge_accumulators` with a
truth test `truthy` of accumulators. -/
def beamMerge {A : Type} (truthy : A → Bool) (merge : A → A → A) (accs : List A) : Option A :=
  accs.foldl (fun res acc =>
    match res with
    | some r => if truthy r then some (merge r acc) else some acc
    | none => some acc) none

end PDP.Engine
