import Verif.EndToEnd.CallsCover

/-!
# Programs on private collections: Beam and Spark

A program makes private collections of raw collections, transforms them with `map` and `flat_map`, and asks for aggregations and
selections of partitions, with any number of accountants.  Here: what it calls on the engines, and what may be released.
-/

namespace PDP.EndToEnd

open PDP PDP.Engine
open PDP.Private (Coll Kind MetricParams SelectParams makePrivate beamStep sparkStep beamParams sparkParams beamSelect
  sparkSelect)

variable {P V K A : Type} [DecidableEq P] [DecidableEq K] [DecidableEq A]

/-- The two APIs: `private_beam.py` and `private_spark.py`. -/
inductive Api where
  | beam
  | spark
  deriving DecidableEq

/-- `map` and `flat_map` of the API (see `Private/Collection.lean`). -/
def Api.step : Api → Coll P V A → Private.Op V → Coll P V A
  | .beam => beamStep
  | .spark => sparkStep

/-- The parameters with which the API calls `DPEngine.aggregate`. -/
def Api.params : Api → Kind → MetricParams → Params
  | .beam => beamParams
  | .spark => sparkParams

/-- The parameters with which the API calls `DPEngine.select_partitions`. -/
def Api.selectParams : Api → SelectParams → SelectParams
  | .beam => beamSelect
  | .spark => sparkSelect

/-- What is asked for: `Variance`, `Mean`, `Sum`, `Count`, `PrivacyIdCount` with the extractors of the parameters and the public
partitions (`private_beam.py:115-431`, `private_spark.py:62-342`); `SelectPartitions` (`private_beam.py:434-457`,
`private_spark.py:344-366`). -/
inductive Ask (V K : Type) where
  | aggregate (kind : Kind) (params : MetricParams) (partitions : Option (List K)) (partition : V → K) (value : V → ℚ)
  | select (params : SelectParams) (partition : V → K)

/-- One release of a program, `make_private(raw, accountant, privacy_id_extractor)`, then `map` and `flat_map`, then an
aggregation.  Collections of which several releases are made occur in each of them. -/
structure Release (P V K A : Type) where
  privacyId : V → P
  accountant : A
  raw : List V
  ops : List (Private.Op V)
  ask : Ask V K

/-- The private collection on which the aggregation is called. -/
def Release.coll (api : Api) (r : Release P V K A) : Coll P V A :=
  r.ops.foldl api.step (makePrivate r.privacyId r.accountant r.raw)

/-- The call on the engine.  The extractors get the elements of the rows, `x[1]` (`private_beam.py:156-168, 221-232, 285-296,
347-360, 410-422, 449-455`, `private_spark.py:99-111, 156-167, 212-223, 266-278, 320-333, 362-366`).  The value extractor of the
counts gives `None`, which is not read: here 0. -/
def Release.call (api : Api) (r : Release P V K A) : Call (P × V) K :=
  match r.ask with
  | .aggregate kind m pub part value =>
    .aggregate (api.params kind m) pub (fun x => part x.2) (fun x => if kind.usesValues then value x.2 else 0)
  | .select s part => .select (api.selectParams s) (fun x => part x.2)

/-- `_get_privacy_id_extractor` (`private_spark.py:368-374`): no privacy ids (`None`) if the bounds are declared enforced; in Beam
and for `select_partitions` always `x[0]`. -/
def Release.pid (api : Api) (r : Release P V K A) (x : P × V) : Option P :=
  match r.ask with
  | .aggregate kind m _ _ _ => if (api.params kind m).boundsEnforced then none else some x.1
  | .select _ _ => some x.1

/-- The releases whose engine has the accountant `a`: each engine gets the accountant of the collection (`private_beam.py:52-59, 89-91`,
`private_spark.py:82-83, 141-142, 197-198, 253-254, 308-309, 355-356`). -/
def spending (api : Api) (a : A) (prog : List (Release P V K A)) : List (Release P V K A) :=
  prog.filter fun r => (r.coll api).accountant = a

/-- What may be released by the releases, per release. -/
noncomputable def evalReleases (api : Api) (sigma : ℝ → ℝ → ℝ → ℝ) (s : Specs) (env : ℕ → Env K) :
    ℕ → List (Release P V K A) → List Built → Except Err (List (List (Candidate K)))
  | j, r :: rs, b :: bs =>
    match evalCall sigma s (env j) (r.pid api) b (r.coll api).rows (r.call api) with
    | .error e => .error e
    | .ok x =>
      match evalReleases api sigma s env (j + 1) rs bs with
      | .error e => .error e
      | .ok y => .ok (x :: y)
  | _, _, _ => .ok []

/-! ### Specification -/

/-- The same release on the raw collection without the elements of the privacy id `u`. -/
def Release.without (u : P) (r : Release P V K A) : Release P V K A :=
  { r with raw := r.raw.filter fun x => r.privacyId x ≠ u }

/-- Parameters of an aggregation for which it is shown to be private: positive bounds on contributions; ordered value bounds,
different for MEAN and VARIANCE and not both 0 for SUM, such that the squares are covered for VARIANCE (see C16, C17).  In Spark
also a positive weight, and no PRIVACY_ID_COUNT of data whose bounds are declared enforced. -/
def MetricParams.Valid (api : Api) (kind : Kind) (m : MetricParams) : Prop :=
  1 ≤ m.maxPartitions ∧ (kind ≠ .privacyIdCount → 1 ≤ m.maxPerPartition) ∧
  (kind = .sum → m.minValue ≤ m.maxValue ∧ ¬(m.minValue = 0 ∧ m.maxValue = 0)) ∧
  (kind = .mean → m.minValue < m.maxValue) ∧
  (kind = .variance → m.minValue < m.maxValue ∧ SquaresCovered m.minValue m.maxValue) ∧
  (api = .spark → 0 < m.weight ∧ (kind = .privacyIdCount → m.enforced = false))

/-- An ask with valid parameters. -/
def Ask.Valid (api : Api) : Ask V K → Prop
  | .aggregate kind m _ _ _ => MetricParams.Valid api kind m
  | .select s _ => 1 ≤ s.maxPartitions ∧ (api = .beam → 0 < s.weight)

/-- The ask needs a positive delta. -/
def Ask.NeedsDelta : Ask V K → Prop
  | .aggregate _ m pub _ _ => m.noise = .gaussian ∨ pub = none
  | .select _ _ => True

/-- The elements of the collection that are derived from elements of the privacy id `u`. -/
def Release.elementsOf (u : P) (r : Release P V K A) : List V :=
  (r.raw.filter fun x => r.privacyId x = u).flatMap (Private.derive r.ops)

/-- What the user of Spark promises with `contribution_bounds_already_enforced`: the elements derived from those of the privacy
id `u` are in at most `max_partitions_contributed` partitions, at most `max_contributions_per_partition` in each.  The user of Beam
promises nothing. -/
def Release.Promised (api : Api) (u : P) (r : Release P V K A) : Prop :=
  match r.ask with
  | .aggregate _ m _ part _ => api = .spark → m.enforced = true →
      (((r.elementsOf u).map part).dedup).length ≤ m.maxPartitions ∧
      ∀ k, ((r.elementsOf u).filter fun y => part y = k).length ≤ m.maxPerPartition
  | .select _ _ => True

end PDP.EndToEnd
