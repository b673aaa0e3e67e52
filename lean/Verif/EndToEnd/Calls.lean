import Verif.EndToEnd.Model
import Verif.Private.Collection

/-!
# A whole pipeline with any calls: public, private and thresholded partitions, partition selection

Several calls of `DPEngine.aggregate` and `DPEngine.select_partitions` on one dataset and one naive accountant, then
`compute_budgets`, then the evaluation.  Extends `Model.lean`, where all partitions are public.
-/

namespace PDP.EndToEnd

open PDP PDP.Engine
open PDP.Engine.Mechanism (Additive createThresholding computed)
open PDP.Engine.AddNoise (specOf)
open PDP.Budget (State Op MechType)
open PDP.Private (SelectParams)

variable {R P K : Type} [DecidableEq P] [DecidableEq K]

/-- A call on the engine with its parameters and extractors; `partitions` are the public partitions of `aggregate`
(`dp_engine.py:65-107, 214-234`).  The privacy id extractor is common to all calls. -/
inductive Call (R K : Type) where
  | aggregate (params : Params) (partitions : Option (List K)) (key : R → K) (value : R → ℚ)
  | select (params : SelectParams) (key : R → K)

/-- `params.budget_weight`. -/
def Call.weight : Call R K → ℚ
  | .aggregate p _ _ _ => p.budgetWeight
  | .select p _ => p.weight

/-! ### Driver: building the graph -/

/-- What a call has built: the combiners with the positions of their budgets, and the position of the budget of private
partition selection. -/
structure Built where
  parts : List Part
  selection : Option ℕ

/-- The budgets of a call. -/
def Built.specs (b : Built) : List ℕ := b.parts.flatMap Part.specs ++ b.selection.toList

/-- `dp_engine.py:109-189, 236-290, 334-335`: the combiners request their budgets first, then partition selection requests
a generic mechanism with the default weight 1. -/
def build (fmt : ℚ → String) (rs : List Request) : Call R K → Except Engine.Err Built × List Request
  | .aggregate p pub _ _ =>
    match createCompound fmt p rs with
    | (.error e, rs') => (.error e, rs')
    | (.ok parts, rs') =>
      if selectsPrivately p pub then (.ok ⟨parts, some (requestBudget rs' .generic 1).1⟩, (requestBudget rs' .generic 1).2)
      else (.ok ⟨parts, none⟩, rs')
  | .select _ _ => (.ok ⟨[], some (requestBudget rs .generic 1).1⟩, (requestBudget rs .generic 1).2)

/-- All calls on the engine, and all calls that they make on the accountant.  `rs` are the requests made before. -/
def planCalls (fmt : ℚ → String) (rs : List Request) : List (Call R K) → Except Engine.Err (List Built × List Op)
  | [] => .ok ([], [])
  | c :: cs =>
    match build fmt rs c with
    | (.error e, _) => .error e
    | (.ok b, rs') =>
      match planCalls fmt rs' cs with
      | .error e => .error e
      | .ok (bs, ops) => .ok (b :: bs, callOps c.weight (rs'.drop rs.length) ++ ops)

/-! ### Workers -/

/-- How it is decided whether a partition is released: always; by the PyDP selector `should_keep`; or by PyDP's
`noised_value_if_should_keep`, with the arguments with which it is created and the count `n` of privacy ids it gets. -/
inductive Gate where
  | always
  | select (strategy : Strategy) (eps delta : ℝ) (l0 : ℕ) (preThreshold : Option ℕ) (n : ℕ)
  | threshold (strategy : Strategy) (eps delta l0 : ℝ) (preThreshold : Option ℕ) (n : ℕ)

/-- A partition that may be released: its key, the decision, and the noisy numbers released if it is kept. -/
structure Candidate (K : Type) where
  key : K
  gate : Gate
  numbers : List (Noisy K)

/-- `partition_selection.create_partition_selection_strategy(strategy, budget.eps, budget.delta, max_partitions, pre_threshold)`
and `should_keep` (`dp_engine.py:357-360`). -/
noncomputable def selectGate (s : Specs) (i : ℕ) (st : Strategy) (l0 : ℕ) (pre : Option ℕ) (n : ℕ) : Except Err Gate :=
  match computed (s i).eps, computed (s i).delta with
  | .ok e, .ok d => .ok (.select st e d l0 pre n)
  | .error e, _ => .error (.mechanism e)
  | _, .error e => .error (.mechanism e)

/-- `PostAggregationThresholdingCombiner` (`combiners.py:353-357`) with `create_thresholding_mechanism`
(`dp_computations.py:828-838`) for the budget `i` and the count `n`; PyDP does not take `None` for `l0_sensitivity`. -/
noncomputable def thresholdGate (s : Specs) (p : Params) (i n : ℕ) : Except Err Gate :=
  match sensPrivacyIdCount p with
  | .error e => .error (.engine e)
  | .ok sn =>
    match createThresholding (s i) sn with
    | .error e => .error (.mechanism e)
    | .ok (_, _, _, none) => .error (.engine .typeError)
    | .ok (st, e, d, some l0) => .ok (.threshold st e d l0 p.preThreshold n)

/-- The thresholding combiner of a compound combiner: its budget and its accumulator. -/
noncomputable def thresholdPart (sigma : ℝ → ℝ → ℝ → ℝ) (p : Params) :
    (parts : List Part) → Combiner.AccTuple (combinersOf sigma p parts) → Option (ℕ × ℕ)
  | [], _ => none
  | .thresholding i :: _, a => some (i, (show ℕ from a.1))
  | _ :: parts, a => thresholdPart sigma p parts a.2

/-- The decision for a partition of `aggregate` with compound accumulator `acc` (`dp_engine.py:157-186, 546-551`). -/
noncomputable def gateOf (sigma : ℝ → ℝ → ℝ → ℝ) (s : Specs) (p : Params) (b : Built)
    (acc : (Combiner.compound (combinersOf sigma p b.parts)).Acc) : Except Err Gate :=
  match b.selection with
  | some i =>
    match maxRowsPerId p, natArg p.maxPartitions with
    | .ok m, .ok l0 => selectGate s i p.strategy l0 p.preThreshold (divideAndRoundUp (Combiner.rowCount acc) m)
    | .error e, _ => .error (.engine e)
    | _, .error e => .error (.engine e)
  | none =>
    if p.postThresholding then
      match thresholdPart sigma p b.parts acc.2 with
      | some (i, n) => thresholdGate s p i n
      | none => .error .attributeError
    else .ok .always

/-- A partition of `aggregate`. -/
noncomputable def candidate (sigma : ℝ → ℝ → ℝ → ℝ) (s : Specs) (p : Params) (b : Built)
    (e : K × (Combiner.compound (combinersOf sigma p b.parts)).Acc) : Except Err (Candidate K) :=
  match gateOf sigma s p b e.2, evalParts sigma s p e.1 b.parts e.2.2 with
  | .ok g, .ok l => .ok ⟨e.1, g, l⟩
  | .error e, _ => .error e
  | _, .error e => .error (.mechanism e)

/-- The combined accumulators of `_select_partitions` before selection (`dp_engine.py:236-276`). -/
def selectAccumulators (B : Backend)
    (comb : List (K × (Combiner.compound ([] : List (Combiner Unit))).Acc) →
      List (K × (Combiner.compound ([] : List (Combiner Unit))).Acc))
    (l0 : ℕ) (col : List (P × K)) : List (K × (Combiner.compound ([] : List (Combiner Unit))).Acc) :=
  comb (((B.groupByKey col).flatMap (sampleUnique B l0)).map fun e =>
    (e.2, (Combiner.compound ([] : List (Combiner Unit))).create []))

/-- Rows extracted by a call. -/
def extract (pid : R → P) (key : R → K) (value : R → ℚ) (data : List R) : List (P × K × ℚ) :=
  data.map fun r => (pid r, key r, value r)

/-- The partitions that one call may release. -/
noncomputable def evalCall (sigma : ℝ → ℝ → ℝ → ℝ) (s : Specs) (env : Env K) (pid : R → P) (b : Built) (data : List R) :
    Call R K → Except Err (List (Candidate K))
  | .aggregate p pub key value =>
    match partitionAccumulators env.backend (combinersOf sigma p b.parts) (env.combine (Combiner.compound _).merge)
        (fun _ _ => true) p pub (extract pid key value data) with
    | .error e => .error (.engine e)
    | .ok out => out.mapM (candidate sigma s p b)
  | .select p key =>
    match b.selection with
    | none => .error (.engine .typeError)
    | some i =>
      (selectAccumulators env.backend (env.combine (Combiner.compound _).merge) p.maxPartitions
        (data.map fun r => (pid r, key r))).mapM fun e =>
        match selectGate s i p.strategy p.maxPartitions p.preThreshold (divideAndRoundUp (Combiner.rowCount e.2) 1) with
        | .ok g => .ok ⟨e.1, g, []⟩
        | .error e => .error e

/-- The partitions that all calls may release, per call. -/
noncomputable def evalCalls (sigma : ℝ → ℝ → ℝ → ℝ) (s : Specs) (env : ℕ → Env K) (pid : R → P) (data : List R) :
    ℕ → List (Call R K) → List Built → Except Err (List (List (Candidate K)))
  | j, c :: cs, b :: bs =>
    match evalCall sigma s (env j) pid b data c with
    | .error e => .error e
    | .ok x =>
      match evalCalls sigma s env pid data (j + 1) cs bs with
      | .error e => .error e
      | .ok y => .ok (x :: y)
  | _, _, _ => .ok []

end PDP.EndToEnd
