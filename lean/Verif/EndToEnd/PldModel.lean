import Verif.EndToEnd.CallsSpec
import Verif.Budget.Pld

/-!
# A whole pipeline with `PLDBudgetAccountant`

Calls of the engine on one dataset and one PLD accountant, then `compute_budgets`, then the evaluation.  Graph building and
evaluation are those of `Calls.lean`; here are the accountant, the check of the engine that the accountant supports a call, and
what the theorems assume of the library `dp_accounting`.
-/

namespace PDP.EndToEnd

open PDP PDP.Engine MeasureTheory
open PDP.Budget (State Op MechType Out)
open PDP.Budget.Pld (PldLib grant composeDistributions composedEps minimumNoiseStd)
open PDP.Approx (Indist)
open PDP.Engine.Mechanism (Additive)

variable {R P K : Type} [DecidableEq P] [DecidableEq K]

/-! ### The accountant (`budget_accounting.py:411-543`) -/

/-- `budget_accounting.py:464-508` `PLDBudgetAccountant.request_budget`. -/
def pldRequest (s : State) (t : MechType) (sens w : ℚ) (count : ℤ) (noiseStd : Option ℚ) : State × Except Budget.Err ℕ :=
  if s.finalized then (s, .error .requestAfterCompute)
  else if count ≠ 1 ∨ noiseStd.isSome then (s, .error .notImplemented)
  else if t = .gaussian ∧ s.totalDelta = 0 then (s, .error .gaussianNeedsDelta)
  else (Budget.register s { mtype := t, sensitivity := sens, weight := w, count := 1, eps := none, delta := none },
    .ok s.mechs.length)

/-- One call on the accountant while the graph is built.  Scopes and aggregations are code of the base class
(`budget_accounting.py:125-270`); `compute_budgets` is `pldCompute`. -/
def pldStep (s : State) : Op → State × Out
  | .request t sens w c n => match pldRequest s t sens w c n with
    | (s, .ok i) => (s, .spec i)
    | (s, .error e) => (s, .raised e)
  | op => Budget.step s op

/-- A history of calls. -/
def pldRun (s : State) : List Op → State × List Out
  | [] => (s, [])
  | op :: ops =>
    let r := pldStep s op
    let r' := pldRun r.1 ops
    (r'.1, r.2 :: r'.2)

/-- The registered mechanisms with real numbers. -/
noncomputable def pldMechs (s : State) : List Budget.Pld.Mech :=
  s.mechs.map fun m => ⟨m.mtype, (m.sensitivity : ℝ), (m.weight : ℝ)⟩

/-- `budget_accounting.py:536-543`: the published specs. -/
noncomputable def pldSpecs (s : State) (σ : ℝ) : Specs := fun i =>
  match (pldMechs s)[i]? with
  | none => ⟨.generic, none, none, none⟩
  | some m =>
    let g := grant s.totalEps s.totalDelta σ m
    ⟨m.mtype, some g.noiseStd, g.epsDelta.map Prod.fst, g.epsDelta.map Prod.snd⟩

/-- Why `compute_budgets` returns nothing: an exception, the `AttributeError` of `None.get_epsilon_for_delta` when nothing is
composed, or the search for the noise still running after the given number of iterations. -/
inductive PldErr
  | accountant (e : Budget.Err)
  | attributeError
  | searching

/-- `budget_accounting.py:510-543` `PLDBudgetAccountant.compute_budgets`: what the workers see afterwards.  `fuel` bounds the
iterations of `_calculate_max_noise_std`. -/
noncomputable def pldCompute (pl : PldLib) (fuel : ℕ) (s : State) : Except PldErr Specs :=
  if Budget.checkRestrictions s = false then .error (.accountant .aggregationRestriction)
  else if s.finalized then .error (.accountant .computeTwice)
  else if s.mechs = [] then .ok fun _ => ⟨.generic, none, none, none⟩
  else if s.stack ≠ [] then .error (.accountant .insideScope)
  else if s.totalDelta ≠ 0 ∧ (composeDistributions pl s.totalEps s.totalDelta (pldMechs s) 2).isNone then .error .attributeError
  else
    match minimumNoiseStd (fun σ => (composedEps pl s.totalEps s.totalDelta (pldMechs s) σ).getD 0) s.totalEps s.totalDelta
      (pldMechs s) fuel with
    | none => .error .searching
    | some σ => .ok (pldSpecs s σ)

/-- `dp_engine.py:92-95, 226-227`: the engine asks whether the accountant supports the call.  The metrics are those of
`AggregateParams` without custom combiners. -/
def Call.pldCheck : Call R K → Except Engine.Err Unit
  | .aggregate p pub _ _ => Validation.checkAccountant false pub.isSome p.metrics false
  | .select _ _ => Validation.checkAccountant false false [] false

/-! ### Specification -/

/-- What `dp_accounting` promises: there is a relation "this privacy loss distribution dominates these two distributions of
outputs" such that
* the distribution of the Laplace mechanism with parameter `b` dominates Laplace noise of scale `x * b` on vectors of
  numbers with an L1 distance of at most `x`,
* the distribution of the Gaussian mechanism with standard deviation `σ` dominates Gaussian noise of standard deviation
  `σ * x` on vectors with a Euclidean distance of at most `x`,
* composition dominates independent outputs,
* post-processing is dominated as well,
* `get_epsilon_for_delta` is sound. -/
structure PldContract (pl : PldLib) where
  Dominates : pl.PLD → ∀ {X : Type} [MeasurableSpace X], Measure X → Measure X → Prop
  laplace : ∀ (b x : ℝ), 0 < b → 0 < x → ∀ {ι : Type} [Fintype ι] (a a' : ι → ℝ), ∑ i, |a i - a' i| ≤ x →
    Dominates (pl.laplace b) (Measure.pi fun i => noisy (.laplace (x * b) x) (a i))
      (Measure.pi fun i => noisy (.laplace (x * b) x) (a' i))
  gaussian : ∀ (σ x : ℝ), 0 < σ → 0 < x → ∀ {ι : Type} [Fintype ι] (a a' : ι → ℝ), Real.sqrt (∑ i, (a i - a' i) ^ 2) ≤ x →
    Dominates (pl.gaussian σ) (Measure.pi fun i => noisy (.gaussian (σ * x) x) (a i))
      (Measure.pi fun i => noisy (.gaussian (σ * x) x) (a' i))
  compose : ∀ (p q : pl.PLD) {X Y : Type} [MeasurableSpace X] [MeasurableSpace Y] (μ ν : Measure X) (μ' ν' : Measure Y)
    [IsProbabilityMeasure μ] [IsProbabilityMeasure ν] [IsProbabilityMeasure μ'] [IsProbabilityMeasure ν'],
    Dominates p μ ν → Dominates q μ' ν' → Dominates (pl.compose p q) (μ.prod μ') (ν.prod ν')
  map : ∀ (p : pl.PLD) {X Y : Type} [MeasurableSpace X] [MeasurableSpace Y] (μ ν : Measure X) (f : X → Y), Measurable f →
    Dominates p μ ν → Dominates p (μ.map f) (ν.map f)
  sound : ∀ (p : pl.PLD) {X : Type} [MeasurableSpace X] (μ ν : Measure X) [IsProbabilityMeasure μ] [IsProbabilityMeasure ν],
    Dominates p μ ν → ∀ d : ℝ, 0 < d → d < 1 → Indist (pl.epsForDelta p d) d μ ν

/-- The call adds Gaussian noise. -/
def Call.IsGaussian : Call R K → Prop
  | .aggregate p _ _ _ => p.noiseKind = .gaussian
  | .select _ _ => False

end PDP.EndToEnd
