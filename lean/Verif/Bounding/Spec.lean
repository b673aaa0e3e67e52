import Verif.Bounding.Model

/-! # Specification vocabulary for contribution bounding -/

namespace PDP

variable {P K V A : Type} [DecidableEq P] [DecidableEq K]

/-- Values of privacy id `p` in partition `k`. -/
def cell (p : P) (k : K) (col : List (P × K × V)) : List V :=
  (col.filter fun r => r.1 = p ∧ r.2.1 = k).map fun r => r.2.2

/-- Distinct partitions of privacy id `p`. -/
def partitionsOf (p : P) (col : List (P × K × V)) : List K :=
  ((col.filter fun r => r.1 = p).map fun r => r.2.1).dedup

/-- The rows behind a list of bounded `(id, partition)` entries. -/
def rowsBehind (kept : List ((P × K) × List V)) : List (P × K × V) :=
  kept.flatMap fun e => e.2.map fun v => (e.1.1, e.1.2, v)

/-- `kept` is a choice of input rows, grouped so that each `(id, partition)` pair appears once, never
with an empty list of values. -/
structure KeptFrom (col : List (P × K × V)) (kept : List ((P × K) × List V)) : Prop where
  once : (kept.map Prod.fst).Nodup
  nonempty : ∀ e ∈ kept, e.2 ≠ []
  fromInput : ∀ e ∈ kept, e.2.Subperm (cell e.1.1 e.1.2 col)
  rows : (rowsBehind kept).Subperm col

end PDP
