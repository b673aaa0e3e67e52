import Verif.Engine.Spec
import Verif.Budget.Model

/-!
# Model of parameter validation

`aggregate_params.py`, `input_validators.py`, `dp_engine.py` (checks before the pipeline is built) and
`equally_split_budget`.  Here numbers may be NaN or infinite and "integers" may be something else, because
rejecting them is the point.  Strings and other objects in place of numbers are not modelled.
-/

namespace PDP.Validation

open PDP.Engine (Metric NoiseKind Err Params)

/-- A Python float (or int). -/
inductive Num where
  | nan | posInf | negInf
  | fin (q : ℚ)
  deriving DecidableEq, Repr

/-- Python's `a < b` for numbers; false if one is NaN. -/
def Num.lt : Num → Num → Bool
  | .nan, _ => false
  | _, .nan => false
  | .fin a, .fin b => decide (a < b)
  | .negInf, .negInf => false
  | .negInf, _ => true
  | _, .posInf => true
  | _, _ => false

/-- Python's `a <= b`. -/
def Num.le : Num → Num → Bool
  | .nan, _ => false
  | _, .nan => false
  | .fin a, .fin b => decide (a ≤ b)
  | .negInf, _ => true
  | _, .posInf => true
  | _, _ => false

/-- Python's `a == b`. -/
def Num.eq : Num → Num → Bool
  | .nan, _ => false
  | a, b => decide (a = b)

/-- A value given for an integer parameter; `other` is any value that is not an instance of `int` or
`np.integer` (for example 1.5).  `True` counts as the integer 1. -/
inductive IntArg where
  | int (z : ℤ)
  | other
  deriving DecidableEq, Repr

/-- `raise ValueError` under a condition. -/
def rejectIf (c : Bool) : Except Err Unit := if c then .error .valueError else .ok ()

/-- `aggregate_params.py:678-680` `_not_a_proper_number`. -/
def Num.notProper : Num → Bool
  | .fin _ => false
  | _ => true

/-- `aggregate_params.py:683-686, 693-694`: the condition under which `_check_is_positive_int` raises. -/
def notPositiveInt : Option IntArg → Bool
  | some (.int z) => decide (z ≤ 0)
  | _ => true

/-- The arguments of `AggregateParams(...)` that are checked (`aggregate_params.py:243-262`).
`custom` says whether `custom_combiners` is non-empty. -/
structure Raw where
  metrics : Option (List Metric)
  noiseKind : NoiseKind := .laplace
  maxPartitions : Option IntArg := none
  maxPerPartition : Option IntArg := none
  maxContributions : Option IntArg := none
  minValue : Option Num := none
  maxValue : Option Num := none
  minSum : Option Num := none
  maxSum : Option Num := none
  custom : Bool := false
  boundsEnforced : Bool := false
  postThresholding : Bool := false
  preThreshold : Option IntArg := none

/-- `aggregate_params.py:371-378` `_check_both_property_set_or_not`. -/
def bothOrNone (a b : Option Num) : Except Err Unit := rejectIf (a.isNone != b.isNone)

/-- `aggregate_params.py:380-392` `_check_range_correctness`, called when both are set. -/
def checkRange (a b : Option Num) : Except Err Unit :=
  match a, b with
  | some x, some y => do
    rejectIf x.notProper
    rejectIf y.notProper
    rejectIf (y.lt x)
  | _, _ => .error .typeError

/-- `aggregate_params.py:300-334`: checks of metrics against bounds. -/
def checkMetrics (p : Raw) : Except Err Unit :=
  let ms := p.metrics.getD []
  if ms.isEmpty then .ok () else do
    (if Metric.vectorSum ∈ ms then
        rejectIf (decide (Metric.sum ∈ ms) || decide (Metric.mean ∈ ms) || decide (Metric.variance ∈ ms))
      else if p.minSum.isSome then
        rejectIf (ms.any fun m => decide (m ∉ [Metric.sum, .privacyIdCount, .count]))
      else if !p.minSum.isSome && !p.minValue.isSome then
        rejectIf (ms.any fun m => decide (m ∉ [Metric.privacyIdCount, .count]))
      else .ok ())
    rejectIf (p.boundsEnforced && decide (Metric.privacyIdCount ∈ ms))

/-- `aggregate_params.py:345-367`: checks of the contribution bounds. -/
def checkContributions (p : Raw) : Except Err Unit :=
  if p.maxContributions.isSome then do
    rejectIf (notPositiveInt p.maxContributions)
    rejectIf (p.maxPartitions.isSome || p.maxPerPartition.isSome)
  else do
    rejectIf (p.maxPartitions.isNone && p.maxPerPartition.isNone)
    rejectIf (p.maxPartitions.isNone || p.maxPerPartition.isNone)
    rejectIf (notPositiveInt p.maxPartitions)
    rejectIf (notPositiveInt p.maxPerPartition)

/-- `aggregate_params.py:281-369` `AggregateParams.__post_init__`. -/
def postInit (p : Raw) : Except Err Unit := do
  bothOrNone p.minValue p.maxValue
  bothOrNone p.minSum p.maxSum
  rejectIf (p.minValue.isSome && p.minSum.isSome)
  (if p.minValue.isSome then checkRange p.minValue p.maxValue else .ok ())
  (if p.minSum.isSome then checkRange p.minSum p.maxSum else .ok ())
  checkMetrics p
  rejectIf (!(p.metrics.getD []).isEmpty && p.custom)
  checkContributions p
  (if p.preThreshold.isSome then rejectIf (notPositiveInt p.preThreshold) else .ok ())

/-- `dp_engine.py:419-450` `_check_aggregate_params` for a valid collection, extractors and parameters.
Iterating over or searching in `None` metrics raises `TypeError`. -/
def checkAggregate (p : Raw) : Except Err Unit := do
  (if p.maxContributions.isSome then
    match p.metrics with
    | none => .error .typeError
    | some ms => if ms.any fun m => decide (m ∉ [Metric.privacyIdCount, .count, .sum, .mean])
        then .error .notImplemented else .ok ()
  else .ok ())
  (if p.boundsEnforced then
    match p.metrics with
    | none => .error .typeError
    | some ms => rejectIf (decide (Metric.privacyIdCount ∈ ms))
  else .ok ())
  (if p.postThresholding then
    match p.metrics with
    | none => .error .typeError
    | some ms => rejectIf (decide (Metric.privacyIdCount ∉ ms))
  else .ok ())

/-- `dp_engine.py:523-544` `_check_budget_accountant_compatibility`. -/
def checkAccountant (naive : Bool) (publicPartitions : Bool) (ms : List Metric) (custom : Bool) : Except Err Unit :=
  if naive then .ok ()
  else if !publicPartitions then .error .notImplemented
  else if ms.any fun m => decide (m ∉ [Metric.count, .privacyIdCount, .sum, .mean]) then .error .notImplemented
  else rejectIf custom

/-- `input_validators.py:17-34` `validate_epsilon_delta`. -/
def validateEpsilonDelta (eps delta : Num) : Except Err Unit := do
  rejectIf (eps.le (.fin 0))
  rejectIf (delta.lt (.fin 0))
  rejectIf ((Num.fin 1).le delta)

/-- `aggregate_params.py:159-173` `CalculatePrivateContributionBoundsParams.__post_init__`. -/
def contributionBoundsParams (noise : Option NoiseKind) (eps delta calcEps : Num) (upper : Option IntArg) :
    Except Err Unit := do
  validateEpsilonDelta eps delta
  rejectIf noise.isNone
  rejectIf (decide (noise = some .gaussian) && delta.eq (.fin 0))
  validateEpsilonDelta calcEps (.fin 0)
  rejectIf (notPositiveInt upper)

/-- `analysis/data_structures.py:140-146` `UtilityAnalysisOptions.__post_init__`. -/
def utilityAnalysisOptions (eps delta samplingProb : Num) : Except Err Unit := do
  validateEpsilonDelta eps delta
  rejectIf (samplingProb.le (.fin 0) || (Num.fin 1).lt samplingProb)

/-- `analysis/dp_strategy_selector.py:43-49` `DPStrategySelector.__init__`. -/
def strategySelectorInit (eps delta : Num) (publicPartitions : Bool) : Except Err Unit := do
  validateEpsilonDelta eps delta
  rejectIf (delta.eq (.fin 0) && !publicPartitions)

/-- `aggregate_params.py:667-675` `AddDPNoiseParams.__post_init__`; `none` is `None`. -/
def addDpNoiseParams (l0 linf weight : Option Num) : Except Err Unit := do
  rejectIf (l0.elim false fun x => x.le (.fin 0))
  rejectIf (linf.elim false fun x => x.le (.fin 0))
  rejectIf (weight.elim false fun x => x.le (.fin 0))

/-- The integer, if positive. -/
def IntArg.toNat? : IntArg → Option ℕ
  | .int z => some z.toNat
  | .other => none

/-- The engine's view (`PDP.Engine.Params`) of accepted arguments. -/
def Raw.toParams (p : Raw) : Params :=
  { metrics := p.metrics.getD []
    noiseKind := p.noiseKind
    maxPartitions := p.maxPartitions.bind IntArg.toNat?
    maxPerPartition := p.maxPerPartition.bind IntArg.toNat?
    maxContributions := p.maxContributions.bind IntArg.toNat?
    boundsEnforced := p.boundsEnforced
    postThresholding := p.postThresholding }

/-! ### Splitting a budget -/

/-- The loop of `dp_computations.py:249-259`: parts, used epsilon and used delta.  `rnd` is the rounding
of the float division. -/
def splitLoop (rnd : ℚ → ℚ) (eps delta : ℚ) (n : ℤ) : ℕ → List (ℚ × ℚ) × ℚ × ℚ
  | 0 => ([], 0, 0)
  | k + 1 =>
    let (budgets, epsUsed, deltaUsed) := splitLoop rnd eps delta n k
    let budget := (rnd (eps / n), rnd (delta / n))
    (budgets ++ [budget], epsUsed + budget.1, deltaUsed + budget.2)

/-- `dp_computations.py:232-260` `equally_split_budget`; additions and subtractions are exact. -/
def equallySplit (rnd : ℚ → ℚ) (eps delta : ℚ) (n : ℤ) : Except Err (List (ℚ × ℚ)) :=
  if n ≤ 0 then .error .valueError
  else
    let (budgets, epsUsed, deltaUsed) := splitLoop rnd eps delta n (n - 1).toNat
    .ok (budgets ++ [(eps - epsUsed, delta - deltaUsed)])

end PDP.Validation
