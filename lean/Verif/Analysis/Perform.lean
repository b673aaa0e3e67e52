import Verif.Analysis.PredictsSelection
import Verif.Analysis.CrossPartition
import Verif.Analysis.Reports
import Verif.EndToEnd.Model

/-!
# The whole utility analysis: `perform_utility_analysis` (`analysis/utility_analysis.py:42-145`)

From the options to the reports: the combiners of all configurations with their budgets, the analysis of every partition, the
packing of the results and the averages over the partitions.  The parts are the models of the other modules; here they are
plugged together.
-/

namespace PDP.Analysis

open PDP
open PDP.Engine (NoiseKind Strategy natArg Sens sensCount sensSum sensPrivacyIdCount)
open PDP.Engine.Mechanism (Spec computed createAdditive)
open PDP.Engine.AddNoise (specOf)
open PDP.EndToEnd (Env additive toMechType)
open PDP.Analysis.Config (Multi allParams strategies)

variable {P K : Type} [DecidableEq P] [DecidableEq K]

/-- Exceptions of the analysis. -/
inductive Fail where
  | notImplemented
  | indexError
  | attributeError
  | budget (e : Budget.Err)
  | config (e : Config.Err)
  | engine (e : Engine.Err)
  | mechanism (e : Engine.Mechanism.Err)
  | analysis (e : Err)
  | packing (e : Reports.Err)

/-- An exception of a part. -/
def failing {E A : Type} (f : E → Fail) : Except E A → Except Fail A
  | .ok a => .ok a
  | .error e => .error (f e)

/-! ### The combiners and their budgets -/

/-- What an internal combiner analyses: partition selection, (a column of) SUM, COUNT or PRIVACY_ID_COUNT. -/
inductive Kind where
  | selection
  | sum (column : Option ℕ)
  | count
  | idCount
deriving DecidableEq

/-- `_check_utility_analysis_params` (`utility_analysis_engine.py:202-239`) on the parameters; there are no custom combiners and
the extractors fit the data. -/
def checkOptions (p : Engine.Params) : Except Fail Unit :=
  if p.metrics.any (fun m => !(m == .count || m == .sum || m == .privacyIdCount)) then .error .notImplemented
  else if p.boundsEnforced then .error .notImplemented
  else if p.postThresholding then .error .notImplemented
  else .ok ()

/-- The combiners of one configuration in the order of their creation (`utility_analysis_engine.py:125-153`), with the
parameters they get. -/
def asked (isPublic : Bool) (metrics : List Engine.Metric) (p : Engine.Params) (sums : List (Option ℚ × Option ℚ)) :
    List (Kind × Engine.Params) :=
  (if isPublic then [] else [(.selection, p)]) ++
  (if .sum ∈ metrics then
    sums.zipIdx.map fun x =>
      (.sum (if sums.length = 1 then none else some x.2), { p with minSum := x.1.1, maxSum := x.1.2 })
    else []) ++
  (if .count ∈ metrics then [(.count, p)] else []) ++
  (if .privacyIdCount ∈ metrics then [(.idCount, p)] else [])

/-- The mechanism requested for a combiner: GENERIC for partition selection, else the one of the noise kind
(`utility_analysis_engine.py:121, 128-129, 141, 147, 152`). -/
def Kind.mechanism (k : Kind) (p : Engine.Params) : Budget.MechType :=
  match k with
  | .selection => .generic
  | _ => toMechType p.noiseKind.mechanism

/-- The budget requests of the combiners, with the default weight 1 (`utility_analysis_engine.py:128, 141, 147, 152`). -/
def requestAll (s : Budget.State) : List (Kind × Engine.Params) →
    Except Fail (Budget.State × List (Kind × Engine.Params × ℕ))
  | [] => .ok (s, [])
  | (k, p) :: l =>
    match Budget.requestBudget s (k.mechanism p) 1 1 1 none with
    | (_, .error e) => .error (.budget e)
    | (s, .ok i) =>
      match requestAll s l with
      | .error e => .error e
      | .ok (s, l) => .ok (s, (k, p, i) :: l)

/-- An internal combiner: what it analyses, its parameters and its budget. -/
structure Created where
  kind : Kind
  params : Engine.Params
  spec : Spec

/-- One configuration (`utility_analysis_engine.py:110-154`): all requests are made on a copy `s` of the accountant, of which
`compute_budgets` is called. -/
def createConfiguration (s : Budget.State) (l : List (Kind × Engine.Params)) : Except Fail (List Created) :=
  match requestAll s l with
  | .error e => .error e
  | .ok (s, l) =>
    match Budget.computeBudgets s with
    | (_, .error e) => .error (.budget e)
    | (s, .ok _) => .ok (l.map fun x => ⟨x.1, x.2.1, specOf s x.2.2⟩)

/-- `AggregateParams` as the blueprint of the configurations.  (`noise_kind` `None`, which is allowed if there are no metrics, is
not modelled.) -/
def blueprint (p : Engine.Params) : Config.Params NoiseKind Strategy Engine.Params :=
  ⟨p.maxPartitions, p.maxPerPartition, p.minSum, p.maxSum, some p.noiseKind, p.strategy, p⟩

/-- The parameters of a configuration. -/
def ofConfig (c : Config.Params NoiseKind Strategy Engine.Params) : Engine.Params :=
  { c.rest with
    maxPartitions := c.l0, maxPerPartition := c.linf, minSum := c.minSum, maxSum := c.maxSum
    noiseKind := c.noise.getD c.rest.noiseKind, strategy := c.strategy }

/-- The combiners of all configurations (`utility_analysis_engine.py:102-157`), without the one of the raw statistics. -/
def createCombiners (s : Budget.State) (isPublic : Bool) (p : Engine.Params) (c : Option (Multi NoiseKind Strategy)) :
    Except Fail (List (List Created)) :=
  match allParams (blueprint p) c with
  | .error e => .error (.config e)
  | .ok l => l.mapM fun x => createConfiguration s (asked isPublic p.metrics (ofConfig x.1) x.2)

/-! ### The metrics of a partition -/

/-- The arguments with which PyDP's partition selection is created (`per_partition_combiners.py:219-227`, `122-141`). -/
structure SelectionArgs where
  strategy : Strategy
  eps : ℝ
  delta : ℝ
  l0 : ℕ
  preThreshold : Option ℕ

def Created.selectionArgs (c : Created) : Except Fail SelectionArgs := do
  let e ← failing .mechanism (computed c.spec.eps)
  let d ← failing .mechanism (computed c.spec.delta)
  let l0 ← failing .engine (natArg c.params.maxPartitions)
  return ⟨c.params.strategy, e, d, l0, c.params.preThreshold⟩

/-- The combiner with the parameters it uses on the data; `keepOf` is PyDP's `probability_of_keep`.  A parameter which is `None`
is an error when it is used (`per_partition_combiners.py:204-206, 257-263`), here when the combiner is created. -/
def Created.comb (keepOf : SelectionArgs → ℕ → ℚ) (c : Created) : Except Fail Comb :=
  match c.kind with
  | .selection => do
    let a ← c.selectionArgs
    return .selection a.l0 (keepOf a)
  | .sum column => do
    let lo ← failing .engine (Engine.num c.params.minSum)
    let hi ← failing .engine (Engine.num c.params.maxSum)
    let l0 ← failing .engine (natArg c.params.maxPartitions)
    return .sum column lo hi l0
  | .count => do
    let linf ← failing .engine (natArg c.params.maxPerPartition)
    let l0 ← failing .engine (natArg c.params.maxPartitions)
    return .count linf l0
  | .idCount => do
    let l0 ← failing .engine (natArg c.params.maxPartitions)
    return .idCount l0

/-- `get_sensitivities` (`per_partition_combiners.py:292-293, 321-322, 346-348`). -/
noncomputable def Created.sens (c : Created) : Except Engine.Err Sens :=
  match c.kind with
  | .count => sensCount c.params
  | .idCount => sensPrivacyIdCount c.params
  | _ => sensSum c.params

/-- `_get_std_noise` (`per_partition_combiners.py:295-299`). -/
noncomputable def Created.std (sigma : ℝ → ℝ → ℝ → ℝ) (c : Created) : Except Fail ℝ :=
  match additive sigma c.sens c.spec with
  | .error e => .error (.mechanism e)
  | .ok m => .ok m.std

/-- The result of an internal combiner: a probability or `SumMetrics` (`per_partition_combiners.py:219-227, 279-290`). -/
noncomputable def Created.item (sigma : ℝ → ℝ → ℝ → ℝ) (c : Created) : Metric → Except Fail (Reports.Item PM)
  | .probability q => .ok (.probability q)
  | .sum a =>
    match c.std sigma with
    | .error e => .error e
    | .ok s => .ok (.errors ⟨a.metrics, s⟩)
  | .raw _ _ => .error .attributeError

/-- The packed results of a partition (`utility_analysis.py:79-84`): the first metric is the raw statistics. -/
noncomputable def packPartition (sigma : ℝ → ℝ → ℝ → ℝ) (created : List Created) (n : ℕ) :
    List Metric → Except Fail (List (Reports.PartitionMetrics PM))
  | .raw ids rows :: ms => do
    let items ← (created.zip ms).mapM fun x => x.1.item sigma x.2
    failing .packing (Reports.pack ids rows items n)
  | _ => .error .attributeError

/-- The packed results of all partitions (`utility_analysis.py:79-84`). -/
noncomputable def packAll (sigma : ℝ → ℝ → ℝ → ℝ) (created : List Created) (n : ℕ) (result : List (K × Except Err (List Metric))) :
    Except Fail (List (K × List (Reports.PartitionMetrics PM))) :=
  result.mapM fun e => do
    let ms ← failing .analysis e.2
    let l ← packPartition sigma created n ms
    return (e.1, l)

/-! ### The reports -/

/-- `PerPartitionMetrics` as used by the cross-partition combiner. -/
noncomputable def crossInput (m : Reports.PartitionMetrics PM) : PartitionMetrics := ⟨(m.keep : ℝ), m.rows, m.errors⟩

/-- `UtilityReport` with the strategy of partition selection; it is only set without public partitions
(`utility_analysis.py:128-142`). -/
structure UtilityReport where
  report : Reports.Report (PartitionsInfo × List MetricUtility)
  strategy : Option Strategy

/-- `add_partition_selection_strategy` (`utility_analysis.py:132-139`). -/
def addStrategy (isPublic : Bool) (ss : List Strategy) :
    Option (Reports.Report (PartitionsInfo × List MetricUtility)) → Except Fail UtilityReport
  | none => .error .attributeError
  | some r =>
    if isPublic then .ok ⟨r, none⟩
    else match ss[r.index]? with
      | none => .error .indexError
      | some st => .ok ⟨r, some st⟩

/-- The strategies of the configurations; they are used without public partitions only (`utility_analysis.py:128-131`). -/
def reportStrategies (isPublic : Bool) (p : Engine.Params) (c : Option (Multi NoiseKind Strategy)) :
    Except Fail (List Strategy) :=
  if isPublic then .ok [] else failing .config (strategies (blueprint p) c)

/-- `options.n_configurations` (`data_structures.py:148-152`). -/
def nConfigurations (c : Option (Multi NoiseKind Strategy)) : Except Fail ℕ :=
  match c with
  | none => .ok 1
  | some c => failing .config c.check

/-- `perform_utility_analysis` (`utility_analysis.py:42-145`) with total budget `(eps, delta)`.  `env` is the backend with its random
choices for the analysis, `O` its deterministic operations for the reports; `keep` is the sampling of partitions.  The
failure of one partition fails the whole analysis. -/
noncomputable def performUtilityAnalysis (env : Env K) (O : Ops) (sigma : ℝ → ℝ → ℝ → ℝ) (keepOf : SelectionArgs → ℕ → ℚ)
    (approx : Moments → ℕ × List ℚ) (keep : K → Bool) (eps delta : ℚ) (p : Engine.Params)
    (c : Option (Multi NoiseKind Strategy)) (pub : Option (List K)) (input : Input P K) :
    Except Fail (List UtilityReport × List ((K × ℕ) × Reports.PartitionMetrics PM)) := do
  let s ← failing .budget (Budget.init eps delta none none)
  checkOptions p
  let created ← createCombiners s pub.isSome p c
  let combs ← created.flatten.mapM fun x => x.comb keepOf
  let combs := Comb.raw :: combs
  let result := analyze env.backend (env.combine (mergeStates combs)) approx combs keep p pub input
  let n ← nConfigurations c
  let packed ← packAll sigma created.flatten n result
  let perPartition := packed.flatMap fun e => e.2.zipIdx.map fun x => ((e.1, x.2), x.1)
  let reports := Reports.reports O (fun m => crossCreate pub.isSome equalWeight (crossInput m)) crossMerge crossMetrics packed
  let ss ← reportStrategies pub.isSome p c
  let reports ← reports.mapM (addStrategy pub.isSome ss)
  return (reports, perPartition)

end PDP.Analysis
