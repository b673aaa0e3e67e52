import Verif.Analysis.PerformDocumented
import Verif.Analysis.Tuning
import Verif.Analysis.Strategy

/-!
# Parameter tuning as a whole: `tune` (`analysis/parameter_tuning.py:322-475`)

The candidates, their noise and selection strategies, the utility analysis of all candidates, and the choice of the best.
The parts are the models of the other modules.  Not modelled: a `strategy_selector_factory` of the caller, and the check of
`partitions_sampling_prob` (the sampling of partitions is an arbitrary predicate).
-/

namespace PDP.Analysis.Tune

open PDP
open PDP.Engine (NoiseKind)
open PDP.EndToEnd (Env)
open PDP.Analysis.Config (Multi allParams)
open PDP.Analysis.Tuning (Request Hists findCandidates indexBest)
open PDP.Analysis.Strategy (PyDP Selector mkSelector addStrategies)

variable {P K : Type} [DecidableEq P] [DecidableEq K]

/-- Exceptions of tuning. -/
inductive TuneFail where
  | valueError
  | notImplemented
  | assertionError
  | indexError
  | candidates (e : Tuning.Err)
  | config (e : Config.Err)
  | selector (e : Engine.Err)
  | analysis (e : Fail)

/-- An exception of a part. -/
def raising {E A : Type} (f : E → TuneFail) : Except E A → Except TuneFail A
  | .ok a => .ok a
  | .error e => .error (f e)

/-- `TuneOptions` with `ParametersToTune` (`parameter_tuning.py:39-94`).  `absolute` is "the function to minimise is
`ABSOLUTE_ERROR`". -/
structure Options where
  eps : ℚ
  delta : ℚ
  params : Engine.Params
  absolute : Bool := true
  tuneL0 : Bool := false
  tuneLinf : Bool := false
  tuneMinSum : Bool := false
  tuneMaxSum : Bool := false
  tuneNoise : Bool := true
  candidates : ℕ := 100

/-- The constructors of `ParametersToTune` (`parameter_tuning.py:51-54`) and of `TuneOptions` (`:92-94`, with
`validate_epsilon_delta`, `input_validators.py:17-34`). -/
def Options.validate (o : Options) : Except TuneFail Unit :=
  if !(o.tuneL0 || o.tuneLinf || o.tuneMinSum || o.tuneMaxSum || o.tuneNoise) then .error .valueError
  else if o.eps ≤ 0 then .error .valueError
  else if o.delta < 0 ∨ 1 ≤ o.delta then .error .valueError
  else .ok ()

/-- `_check_tune_args` (`parameter_tuning.py:451-475`). -/
def checkArgs (o : Options) (isPublic : Bool) : Except TuneFail Unit := do
  match o.params.metrics with
  | [] => if isPublic then .error .valueError else .ok ()
  | m :: _ => if m == .count || m == .privacyIdCount || m == .sum then .ok () else .error .valueError
  if o.tuneMinSum then .error .valueError
  if !o.absolute then .error .notImplemented

/-- What the search for candidates is asked for (`parameter_tuning.py:133-140`). -/
def Options.request (o : Options) : Request :=
  ⟨o.tuneL0, o.tuneLinf && decide (.count ∈ o.params.metrics), o.tuneMaxSum && decide (.sum ∈ o.params.metrics),
    o.params.maxPartitions, o.candidates⟩

/-- `_add_dp_strategy_to_multi_parameter_configuration` (`parameter_tuning.py:241-272`): `c` with noise and strategies.  Where
the selector gives no noise (without metrics) or no strategy, the one of the parameters stands for `None`: it is not used. -/
noncomputable def withStrategies (lib : PyDP) (sel : Selector) (given : Option NoiseKind) (p : Engine.Params)
    (c : Multi Unit Unit) : Except TuneFail (Multi NoiseKind Engine.Strategy) := do
  let c' : Multi NoiseKind Engine.Strategy := ⟨c.l0, c.linf, c.minSum, c.maxSum, none, none⟩
  let ps ← raising .config (allParams (blueprint p) (some c'))
  let (noise, strategies) ← raising .selector (addStrategies lib sel given (ps.map fun x => x.1.l0))
  return { c' with
    noise := some (noise.map fun k => k.getD p.noiseKind)
    strategy := strategies.map fun l => l.map fun st => st.getD p.strategy }

/-- `TuneResult` (`parameter_tuning.py:97-115`) without the arguments which are passed on; `best` is `index_best`, `none` for −1. -/
structure Result where
  configurations : Multi NoiseKind Engine.Strategy
  best : Option ℕ
  reports : List UtilityReport

/-- `ur.metric_errors[0].absolute_error.rmse` with the configuration index (`parameter_tuning.py:437-440`). -/
def firstError (r : UtilityReport) : Except TuneFail (ℕ × ℝ) :=
  match r.report.total.2 with
  | [] => .error .indexError
  | u :: _ => .ok (r.report.index, u.absolute .rmse)

/-- `_convert_utility_analysis_to_tune_result` (`parameter_tuning.py:418-448`). -/
noncomputable def convert (o : Options) (c : Multi NoiseKind Engine.Strategy) (size : ℕ) (reports : List UtilityReport) :
    Except TuneFail Result := do
  if reports.length ≠ size then throw .assertionError
  let best ← if o.params.metrics = [] then .ok none else do
    let errors ← reports.mapM firstError
    raising .candidates (indexBest errors size true)
  return ⟨c, best, reports.insertionSort fun a b => a.report.index ≤ b.report.index⟩

/-- `tune` (`parameter_tuning.py:322-415`) on options made by their constructors.  `hists` are the contribution histograms,
`acc1` and `acc2` the floating point powers of the candidates; the other arguments are those of the analysis.  The Gaussian
mechanism of the selector and of the analysis is the same. -/
noncomputable def tune (env : Env K) (O : Ops) (lib : PyDP) (keepOf : SelectionArgs → ℕ → ℚ)
    (approx : Moments → ℕ × List ℚ) (keep : K → Bool) (hists : Hists) (acc1 acc2 : ℕ → ℕ) (o : Options)
    (pub : Option (List K)) (input : Input P K) :
    Except TuneFail (Result × List ((K × ℕ) × Reports.PartitionMetrics PM)) := do
  o.validate
  checkArgs o pub.isSome
  let c ← raising .candidates (findCandidates o.request hists acc1 acc2)
  let given := if o.tuneNoise then none else some o.params.noiseKind
  let sel ← raising .selector (mkSelector (o.eps : ℝ) (o.delta : ℝ) o.params.metrics pub.isSome)
  let c ← withStrategies lib sel given o.params c
  let (reports, perPartition) ← raising .analysis
    (performUtilityAnalysis env O lib.sigma keepOf approx keep o.eps o.delta o.params (some c) pub input)
  let size ← raising .config c.check
  let result ← convert o c size reports
  return (result, perPartition)

end PDP.Analysis.Tune
