import Verif.Engine.Release
import Verif.Engine.Model
import Verif.Engine.AddNoise
import Verif.Validation.Model

/-!
# A whole pipeline: accountant, engine, bounding, accumulators and noise together

Several `DPEngine.aggregate` calls with public partitions on one dataset and one naive accountant, then `compute_budgets`, then
the evaluation of the results.  The parts are the models of the other modules; here they are plugged together.
-/

namespace PDP.EndToEnd

open PDP PDP.Engine
open PDP.Engine.Mechanism (Additive createAdditive computed pyLaplace laplaceDensity)
open PDP.Engine.AddNoise (specOf)
open PDP.Budget (State Op MechType)

variable {R P K : Type} [DecidableEq P] [DecidableEq K]

/-- One call of `aggregate`: parameters, public partitions and the extractors of partition and value
(`data_extractors.py`).  The privacy id extractor is common to all calls. -/
structure Query (R K : Type) where
  params : Params
  partitions : List K
  key : R → K
  value : R → ℚ

/-- `dp_engine.py:404-417` `_extract_columns`. -/
def Query.rows (pid : R → P) (q : Query R K) (data : List R) : List (P × K × ℚ) :=
  data.map fun r => (pid r, q.key r, q.value r)

/-! ### Driver: requesting budgets -/

def toMechType : Mechanism → MechType
  | .laplace => .laplace
  | .gaussian => .gaussian
  | .laplaceThresholding => .laplaceThresholding
  | .gaussianThresholding => .gaussianThresholding
  | .generic => .generic

/-- Calls made on the accountant by one `aggregate` or `select_partitions` with budget weight `w` (`dp_engine.py:97-107,
225-231`): enter the scope, request the budgets, register the aggregation, leave the scope. -/
def callOps (w : ℚ) (new : List Request) : List Op :=
  .enter w :: (new.map fun r => .request (toMechType r.mechanism) 1 r.weight 1 none) ++ [.aggregation w, .exit]

/-- The calls of `aggregate` with public partitions. -/
def queryOps (p : Params) (new : List Request) : List Op := callOps p.budgetWeight new

/-- The combiners of all `aggregate` calls, with positions of their budgets, and all calls on the accountant.  `rs` are the
requests made before. -/
def plan (fmt : ℚ → String) (rs : List Request) : List (Query R K) → Except Engine.Err (List (List Part) × List Op)
  | [] => .ok ([], [])
  | q :: qs =>
    match createCompound fmt q.params rs with
    | (.error e, _) => .error e
    | (.ok parts, rs') =>
      match plan fmt rs' qs with
      | .error e => .error e
      | .ok (ps, ops) => .ok (parts :: ps, queryOps q.params (rs'.drop rs.length) ++ ops)

/-! ### Workers: evaluating a combiner -/

/-- The budgets as the workers see them: for each position of a request, the attributes of the `MechanismSpec` which the
accountant has published (`specOf` for the naive accountant). -/
abbrev Specs := ℕ → Engine.Mechanism.Spec

/-- A number to which a combiner adds noise: the budget it uses, its position among the numbers which use this budget, the
mechanism created from the budget and the exact number read from the accumulator. -/
structure Number (A : Type) where
  spec : ℕ
  comp : ℕ
  mech : Engine.Mechanism.Spec → Except Engine.Mechanism.Err Additive
  read : A → ℚ

/-- A combiner with the numbers it releases. -/
structure View where
  comb : Combiner ℚ
  numbers : List (Number comb.Acc)

/-- `combiners.py:183-186`: `create_additive_mechanism(mechanism_spec, sensitivities)`, with sensitivities that may fail. -/
noncomputable def additive (sigma : ℝ → ℝ → ℝ → ℝ) (sens : Except Engine.Err Sens) (spec : Engine.Mechanism.Spec) :
    Except Engine.Mechanism.Err Additive :=
  match sens with
  | .error _ => .error .valueError
  | .ok s => createAdditive sigma spec s

/-- `dp_computations.py:154-183` `_add_random_noise` with the share `eps / 3`, `delta / 3` of the budget
(`dp_computations.py:321-326`, exact arithmetic: `Validation.equallySplit id`). -/
noncomputable def thirdOf (sigma : ℝ → ℝ → ℝ → ℝ) (kind : NoiseKind) (l0 linf : ℝ) (spec : Engine.Mechanism.Spec) :
    Except Engine.Mechanism.Err Additive := do
  let e ← computed spec.eps
  let d ← computed spec.delta
  match kind with
  | .laplace => return pyLaplace (e / 3) (l1Sens l0 linf)
  | .gaussian => return .gaussian (sigma (e / 3) (d / 3) (l2Sens l0 linf)) (l2Sens l0 linf)

/-- The combiners of `combiners.py` with their noisy numbers.  Parameters that are `None` are read as 0 (the combiners would
fail); post-aggregation thresholding and percentiles release no noisy numbers (the tree of a `QuantileCombiner` is the multiset of
its entries, and its releases are in `Percentiles.lean`); VECTOR_SUM is in `Vector.lean`. -/
noncomputable def view (sigma : ℝ → ℝ → ℝ → ℝ) (p : Params) : Part → View
  | .count s => ⟨Combiner.count ℚ, [⟨s, 0, additive sigma (sensCount p), fun a : ℕ => (a : ℚ)⟩]⟩
  | .privacyIdCount s =>
      ⟨Combiner.privacyIdCount ℚ, [⟨s, 0, additive sigma (sensPrivacyIdCount p), fun a : ℕ => (a : ℚ)⟩]⟩
  | .sum s =>
      if p.sumBoundsSet then
        ⟨Combiner.sumPerPartition (p.minSum.getD 0) (p.maxSum.getD 0),
          [⟨s, 0, additive sigma (sensSum p), fun a : ℚ => a⟩]⟩
      else
        ⟨Combiner.sumPerValue (p.minValue.getD 0) (p.maxValue.getD 0),
          [⟨s, 0, additive sigma (sensSum p), fun a : ℚ => a⟩]⟩
  | .mean c s _ =>
      ⟨Combiner.mean (p.minValue.getD 0) (p.maxValue.getD 0),
        [⟨c, 0, additive sigma (sensCount p), fun a : ℕ × ℚ => (a.1 : ℚ)⟩,
         ⟨s, 0, additive sigma (sensNormalizedSum p), fun a : ℕ × ℚ => a.2⟩]⟩
  | .variance s _ =>
      let lo := p.minValue.getD 0
      let hi := p.maxValue.getD 0
      let l0 := p.maxPartitions.getD 0
      let n := p.maxPerPartition.getD 0
      let sq := squaresInterval lo hi
      ⟨Combiner.variance lo hi,
        ⟨s, 0, thirdOf sigma p.noiseKind l0 n, fun a : ℕ × ℚ × ℚ => (a.1 : ℚ)⟩ ::
        ((if lo = hi then [] else
          [⟨s, 1, thirdOf sigma p.noiseKind l0 (meanLinf lo hi n : ℚ), fun a : ℕ × ℚ × ℚ => a.2.1⟩]) ++
        (if sq.1 = sq.2 then [] else
          [⟨s, 2, thirdOf sigma p.noiseKind l0 (meanLinf sq.1 sq.2 n : ℚ), fun a : ℕ × ℚ × ℚ => a.2.2⟩]))⟩
  | .thresholding _ => ⟨Combiner.privacyIdCount ℚ, []⟩
  | .vectorSum _ => ⟨Combiner.count ℚ, []⟩
  | .quantile _ _ => ⟨Combiner.quantile (Multiset ℚ) fun v => {v}, []⟩

/-- The inner combiners of the compound combiner. -/
noncomputable def combinersOf (sigma : ℝ → ℝ → ℝ → ℝ) (p : Params) (parts : List Part) : List (Combiner ℚ) :=
  parts.map fun part => (view sigma p part).comb

/-- A noisy number of the output: partition, budget, position, exact value, mechanism. -/
structure Noisy (K : Type) where
  key : K
  spec : ℕ
  comp : ℕ
  exact : ℚ
  mech : Additive

/-- The noisy numbers of one combiner for one partition. -/
noncomputable def evalView (s : Specs) (k : K) (v : View) (a : v.comb.Acc) :
    Except Engine.Mechanism.Err (List (Noisy K)) :=
  v.numbers.mapM fun n => do
    let m ← n.mech (s n.spec)
    return ⟨k, n.spec, n.comp, n.read a, m⟩

/-- `combiners.py:766-788` `CompoundCombiner.compute_metrics` for one partition: every inner combiner is evaluated. -/
noncomputable def evalParts (sigma : ℝ → ℝ → ℝ → ℝ) (s : Specs) (p : Params) (k : K) :
    (parts : List Part) → Combiner.AccTuple (combinersOf sigma p parts) → Except Engine.Mechanism.Err (List (Noisy K))
  | [], _ => .ok []
  | part :: parts, a => do
    let x ← evalView s k (view sigma p part) a.1
    let y ← evalParts sigma s p k parts a.2
    return x ++ y

/-- Everything that the execution of one query may choose: the backend with its random samples, and the way in which it
combines accumulators. -/
structure Env (K : Type) where
  backend : Backend
  combine : {A : Type} → (A → A → A) → List (K × A) → List (K × A)

/-- Exceptions of the evaluation. -/
inductive Err where
  | engine (e : Engine.Err)
  | mechanism (e : Engine.Mechanism.Err)
  | attributeError

/-- The noisy numbers of one `aggregate` (`dp_engine.py:109-186`). -/
noncomputable def evalQuery (sigma : ℝ → ℝ → ℝ → ℝ) (s : Specs) (env : Env K) (pid : R → P) (q : Query R K)
    (parts : List Part) (data : List R) : Except Err (List (Noisy K)) :=
  match partitionAccumulators env.backend (combinersOf sigma q.params parts) (env.combine (Combiner.compound _).merge)
      (fun _ _ => true) q.params (some q.partitions) (q.rows pid data) with
  | .error e => .error (.engine e)
  | .ok out =>
    match out.mapM fun e => evalParts sigma s q.params e.1 parts e.2.2 with
    | .error e => .error (.mechanism e)
    | .ok l => .ok l.flatten

/-- The noisy numbers of all `aggregate` calls. -/
noncomputable def evalAll (sigma : ℝ → ℝ → ℝ → ℝ) (s : Specs) (env : ℕ → Env K) (pid : R → P) (data : List R) :
    ℕ → List (Query R K) → List (List Part) → Except Err (List (Noisy K))
  | j, q :: qs, parts :: ps =>
    match evalQuery sigma s (env j) pid q parts data with
    | .error e => .error e
    | .ok x =>
      match evalAll sigma s env pid data (j + 1) qs ps with
      | .error e => .error e
      | .ok y => .ok (x ++ y)
  | _, _, _ => .ok []

end PDP.EndToEnd
