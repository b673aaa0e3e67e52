import Mathlib.Data.Rat.Defs
import Mathlib.Algebra.Order.Ring.Rat
import Mathlib.Algebra.BigOperators.Group.List.Basic

/-!
# Model of `pipeline_dp/budget_accounting.py`: accountant, scopes, naive accounting

Floats are exact rationals.  Python objects shared by reference (a `MechanismSpecInternal` is
referenced by the accountant and by every open scope) are modelled by their index in the
accountant's mechanism list.
-/

namespace PDP.Budget

/-- `aggregate_params.py:92-98` `MechanismType`. -/
inductive MechType
  | laplace | gaussian | laplaceThresholding | gaussianThresholding | generic
  deriving DecidableEq, Repr

/-- Exceptions raised by the accountant. -/
inductive Err
  /-- "Privacy budget is not calculated yet." (`budget_accounting.py:72-73, 82-83`) -/
  | budgetNotComputed
  /-- request after `compute_budgets` (`:356-360`) -/
  | requestAfterCompute
  /-- `noise_standard_deviation` given (`:362-365`) -/
  | notImplemented
  /-- Gaussian with pipeline delta 0 (`:366-369`) -/
  | gaussianNeedsDelta
  /-- `compute_budgets` called twice (`:268-269`) -/
  | computeTwice
  /-- `compute_budgets` inside a scope (`:389-391`) -/
  | insideScope
  /-- aggregation restriction violated (`:215-247`) -/
  | aggregationRestriction
  /-- Python `ZeroDivisionError` (`:296`) -/
  | zeroDivision
  /-- `pop` from an empty scope stack (`:265`) -/
  | emptyStack
  /-- reading a mechanism that was never returned by `request_budget` (no Python counterpart) -/
  | noSuchMechanism
  /-- invalid constructor argument (`:132-151`) -/
  | invalidArgument
  deriving DecidableEq, Repr

/-- `budget_accounting.py:40-122`: a `MechanismSpec` together with its `MechanismSpecInternal`.
Simplification: the noise standard deviation (used by the PLD accountant only) is in `Pld.lean`. -/
structure Mech where
  mtype : MechType
  sensitivity : ℚ
  weight : ℚ
  count : ℤ
  eps : Option ℚ
  delta : Option ℚ
  deriving DecidableEq, Repr

/-- `budget_accounting.py:106-107` `use_delta`. -/
def Mech.useDelta (m : Mech) : Bool := m.mtype != .laplace

/-- `budget_accounting.py:273-279` a scope object; `mechs` are indices of mechanisms. -/
structure Scope where
  weight : ℚ
  mechs : List Nat
  deriving DecidableEq, Repr

/-- `budget_accounting.py:128-156`: attributes of a `BudgetAccountant`.
`stack` has the innermost scope first (Python appends at the end). -/
structure State where
  totalEps : ℚ
  totalDelta : ℚ
  expectedNum : Option ℤ
  expectedWeights : Option (List ℚ)
  actualWeights : List ℚ
  stack : List Scope
  mechs : List Mech
  finalized : Bool
  deriving DecidableEq, Repr

/-- `input_validators.py:17-34`, `budget_accounting.py:128-156`: the constructor. -/
def init (eps delta : ℚ) (num : Option ℤ) (weights : Option (List ℚ)) : Except Err State :=
  if eps ≤ 0 then .error .invalidArgument
  else if delta < 0 ∨ 1 ≤ delta then .error .invalidArgument
  else if num.isSome ∧ weights.isSome then .error .invalidArgument
  else if num.any (· ≤ 0) then .error .invalidArgument
  else .ok { totalEps := eps, totalDelta := delta, expectedNum := num, expectedWeights := weights,
               actualWeights := [], stack := [], mechs := [], finalized := false }

/-- `budget_accounting.py:249-259` `_register_mechanism`. -/
def register (s : State) (m : Mech) : State :=
  { s with
    mechs := s.mechs ++ [m]
    stack := s.stack.map fun sc => { sc with mechs := sc.mechs ++ [s.mechs.length] } }

/-- `budget_accounting.py:333-378` `NaiveBudgetAccountant.request_budget`; returns the index of the
new mechanism. -/
def requestBudget (s : State) (t : MechType) (sens w : ℚ) (count : ℤ) (noiseStd : Option ℚ) :
    State × Except Err Nat :=
  if s.finalized then (s, .error .requestAfterCompute)
  else if noiseStd.isSome then (s, .error .notImplemented)
  else if t = .gaussian ∧ s.totalDelta = 0 then (s, .error .gaussianNeedsDelta)
  else (register s { mtype := t, sensitivity := sens, weight := w, count := count,
                     eps := none, delta := none }, .ok s.mechs.length)

/-- Weight of the mechanism with index `i`. -/
def weightAt (ms : List Mech) (i : Nat) : ℚ := (ms[i]?).elim 0 Mech.weight

/-- `budget_accounting.py:297-298`: `mechanism.weight *= normalisation_factor` for each registered
mechanism. -/
def scaleAll (f : ℚ) (idx : List Nat) (ms : List Mech) : List Mech :=
  idx.foldl (fun ms i => ms.modify i fun m => { m with weight := m.weight * f }) ms

/-- `budget_accounting.py:281-283`, `:261-262` `__enter__`. -/
def enterScope (s : State) (w : ℚ) : State :=
  { s with stack := { weight := w, mechs := [] } :: s.stack }

/-- `budget_accounting.py:285-287` `__exit__` and `_normalise_mechanism_weights`.
Simplification: `with` blocks are well nested, so the scope that exits is the innermost one, and
every `with accountant.scope(w)` creates a fresh scope object (re-entering one object is not modelled). -/
def exitScope (s : State) : State × Except Err Unit :=
  match s.stack with
  | [] => (s, .error .emptyStack)
  | sc :: rest =>
    let s := { s with stack := rest }
    if sc.mechs = [] then (s, .ok ())
    else
      let total := (sc.mechs.map (weightAt s.mechs)).sum
      if total = 0 then (s, .error .zeroDivision)
      else ({ s with mechs := scaleAll (sc.weight / total) sc.mechs s.mechs }, .ok ())

/-- Python truthiness of an optional int. -/
def truthyNum : Option ℤ → Option ℤ
  | some n => if n = 0 then none else some n
  | none => none

/-- Python truthiness of an optional list. -/
def truthyList : Option (List ℚ) → Option (List ℚ)
  | some [] => none
  | o => o

/-- `budget_accounting.py:189-213` `_compute_budget_for_aggregation`. A weight list summing to 0
raises `ZeroDivisionError`. -/
def computeBudgetForAggregation (s : State) (w : ℚ) : State × Except Err (Option (ℚ × ℚ)) :=
  let s := { s with actualWeights := s.actualWeights ++ [w] }
  match truthyNum s.expectedNum with
  | some n => (s, .ok (some (s.totalEps / n, s.totalDelta / n)))
  | none =>
    match truthyList s.expectedWeights with
    | some ws =>
      if ws.sum = 0 then (s, .error .zeroDivision)
      else
        let r := w / ws.sum
        (s, .ok (some (s.totalEps * r, s.totalDelta * r)))
    | none => (s, .ok none)

/-- `budget_accounting.py:215-247` `_check_aggregation_restrictions`; `true` = no exception. -/
def checkRestrictions (s : State) : Bool :=
  (match truthyNum s.expectedNum with
   | some n => (s.actualWeights.length : ℤ) == n && s.actualWeights.all (· == 1)
   | none => true) &&
  (match truthyList s.expectedWeights with
   | some ws => s.actualWeights.length == ws.length &&
       (s.actualWeights.zip ws).all fun p => p.1 == p.2
   | none => true)

/-- `budget_accounting.py:393-397`: total weight over all mechanisms, or over those using delta. -/
def totalWeightEps (ms : List Mech) : ℚ :=
  ms.foldl (fun acc m => acc + m.weight * m.count) 0

/-- see `totalWeightEps`. -/
def totalWeightDelta (ms : List Mech) : ℚ :=
  ms.foldl (fun acc m => if m.useDelta then acc + m.weight * m.count else acc) 0

/-- `budget_accounting.py:399-408`: assignment to one mechanism. -/
def assign (totEps totDelta wEps wDelta : ℚ) (m : Mech) : Mech :=
  let eps := if wEps ≠ 0 then totEps * m.weight / wEps else 0
  let delta := if m.useDelta then (if wDelta ≠ 0 then totDelta * m.weight / wDelta else 0) else 0
  { m with eps := some eps, delta := some delta }

/-- `budget_accounting.py:380-408` `NaiveBudgetAccountant.compute_budgets`. -/
def computeBudgets (s : State) : State × Except Err Unit :=
  if checkRestrictions s = false then (s, .error .aggregationRestriction)
  else if s.finalized then (s, .error .computeTwice)
  else
    let s := { s with finalized := true }
    if s.mechs = [] then (s, .ok ())
    else if s.stack ≠ [] then (s, .error .insideScope)
    else
      let wE := totalWeightEps s.mechs
      let wD := totalWeightDelta s.mechs
      ({ s with mechs := s.mechs.map (assign s.totalEps s.totalDelta wE wD) }, .ok ())

/-- Calls a client can make. -/
inductive Op
  | request (t : MechType) (sens w : ℚ) (count : ℤ) (noiseStd : Option ℚ)
  | enter (w : ℚ)
  | exit
  | aggregation (w : ℚ)
  | compute
  | readEps (i : Nat)
  | readDelta (i : Nat)
  deriving DecidableEq, Repr

/-- Results of calls. -/
inductive Out
  | spec (i : Nat)
  | unit
  | budget (b : Option (ℚ × ℚ))
  | value (q : ℚ)
  | raised (e : Err)
  deriving DecidableEq, Repr

/-- `budget_accounting.py:66-85` reading `spec.eps` / `spec.delta`. -/
def readField (f : Mech → Option ℚ) (s : State) (i : Nat) : Out :=
  match s.mechs[i]? with
  | none => .raised .noSuchMechanism
  | some m => match f m with
    | none => .raised .budgetNotComputed
    | some q => .value q

/-- One call on the accountant. -/
def step (s : State) : Op → State × Out
  | .request t sens w c n => match requestBudget s t sens w c n with
    | (s, .ok i) => (s, .spec i)
    | (s, .error e) => (s, .raised e)
  | .enter w => (enterScope s w, .unit)
  | .exit => match exitScope s with
    | (s, .ok _) => (s, .unit)
    | (s, .error e) => (s, .raised e)
  | .aggregation w => match computeBudgetForAggregation s w with
    | (s, .ok b) => (s, .budget b)
    | (s, .error e) => (s, .raised e)
  | .compute => match computeBudgets s with
    | (s, .ok _) => (s, .unit)
    | (s, .error e) => (s, .raised e)
  | .readEps i => (s, readField Mech.eps s i)
  | .readDelta i => (s, readField Mech.delta s i)

/-- A history of calls; the outputs are returned in order.  A raised exception leaves the history
running (the caller may catch it). -/
def run (s : State) : List Op → State × List Out
  | [] => (s, [])
  | op :: ops =>
    let r := step s op
    let r' := run r.1 ops
    (r'.1, r.2 :: r'.2)

end PDP.Budget
