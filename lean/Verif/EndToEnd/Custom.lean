import Verif.EndToEnd.MixedProps
import Verif.EndToEnd.Veil

/-!
# Custom combiners (C74): model and specification

`DPEngine.aggregate` with `custom_combiners`, in pipelines with the other calls of the engine.  A combiner is an object: its
fields are written when the graph is built and read when it is evaluated.
-/

set_option linter.unusedSectionVars false

namespace PDP.EndToEnd

open PDP PDP.Engine MeasureTheory
open PDP.Engine.Mechanism (computed)
open PDP.Engine.AddNoise (specOf)
open PDP.Budget (State Op MechType)
open PDP.Approx (Indist)

variable {R P K V A O : Type} [DecidableEq P] [DecidableEq K] [MeasurableSpace O]

/-! ### Model -/

/-- A subclass of `CustomCombiner` (`combiners.py:30-133`), as a function of the fields which `set_aggregate_params` and
`request_budget` have written: the parameters of the call, and `eps` and `delta` of the requested budgets.  `requests` are the
calls `request_budget(mechanism_type, weight=...)` on the accountant; `compute` is the distribution of the result of
`compute_metrics`.  Simplified: `create_accumulator` and `merge_accumulators` are not random; all values, accumulators and results
of a pipeline have the types `V`, `A` and `O`. -/
structure CustomClass (V A O : Type) [MeasurableSpace O] where
  requests : Params → List Request
  create : Params → List V → A
  merge : Params → A → A → A
  compute : Params → List (ℝ × ℝ) → A → Measure O
  sampling : Bool

/-- A call of `aggregate` with `custom_combiners` and no metrics; the combiners are objects, here numbers. -/
structure CustomCall (R K V : Type) where
  params : Params
  partitions : Option (List K)
  key : R → K
  value : R → V
  combiners : List ℕ

/-- The fields of the combiner objects: parameters and positions of the budgets. -/
abbrev Store := ℕ → Option (Params × List ℕ)

/-- Several calls of `request_budget`. -/
def requestAll (rs : List Request) : List Request → List ℕ × List Request
  | [] => ([], rs)
  | r :: l => ((requestBudget rs r.mechanism r.weight).1 :: (requestAll (requestBudget rs r.mechanism r.weight).2 l).1,
      (requestAll (requestBudget rs r.mechanism r.weight).2 l).2)

/-- `create_compound_combiner_with_custom_combiners` (`combiners.py:925-935`): the budgets of every combiner, all requests, and the
fields afterwards.  (The copy of the parameters differs only in `custom_combiners`.) -/
def setCombiners (cls : ℕ → CustomClass V A O) (p : Params) (rs : List Request) (st : Store) :
    List ℕ → List (List ℕ) × List Request × Store
  | [] => ([], rs, st)
  | o :: os =>
    ((requestAll rs ((cls o).requests p)).1 ::
      (setCombiners cls p (requestAll rs ((cls o).requests p)).2
        (Function.update st o (some (p, (requestAll rs ((cls o).requests p)).1))) os).1,
    (setCombiners cls p (requestAll rs ((cls o).requests p)).2
      (Function.update st o (some (p, (requestAll rs ((cls o).requests p)).1))) os).2)

/-- A step of a pipeline: a step of C73 or `aggregate` with custom combiners. -/
inductive XStep (R K V : Type) where
  | step (s : Step R K)
  | custom (c : CustomCall R K V)

/-- `params.budget_weight`. -/
def XStep.weight : XStep R K V → ℚ
  | .step s => s.weight
  | .custom c => c.params.budgetWeight

/-- What a step has built.  For custom combiners: the budgets that were requested for them (in their order), and the position of the
budget of private partition selection. -/
inductive BuiltX where
  | step (b : BuiltStep)
  | custom (requested : List (List ℕ)) (selection : Option ℕ)

/-- The budgets of a step. -/
def BuiltX.specs : BuiltX → List ℕ
  | .step b => b.specs
  | .custom l sel => l.flatten ++ sel.toList

/-- A step of C73 (`planSteps`): what it builds, all requests, and the calls on the accountant. -/
noncomputable def buildStep (fmt : ℚ → String) (rs : List Request) : Step R K → Except Engine.Err (BuiltStep × List Request × List Op)
  | .call c =>
    match build fmt rs c with
    | (.error e, _) => .error e
    | (.ok b, rs') => .ok (.call b, rs', callOps c.weight (rs'.drop rs.length))
  | .noise p _ =>
    match mkSens (p.l0.map fun x : ℚ => (x : ℝ)) (p.linf.map fun x : ℚ => (x : ℝ)) none none with
    | .error e => .error e
    | .ok sens => .ok (.noise (requestBudget rs p.kind.mechanism 1).1 sens, (requestBudget rs p.kind.mechanism 1).2, noiseOps p)

/-- `aggregate` with custom combiners (`dp_engine.py:92-107, 109-126, 162-178, 334-336`): what it builds, all requests, the calls on the
accountant, and the fields of the combiners.  An empty list is treated as if there were no custom combiners (`dp_engine.py:113`),
and then `metrics=None` raises `TypeError`. -/
def buildCustom (cls : ℕ → CustomClass V A O) (rs : List Request) (st : Store) (c : CustomCall R K V) :
    Except Engine.Err (BuiltX × List Request × List Op × Store) :=
  if c.combiners = [] then .error .typeError
  else
    match setCombiners cls c.params rs st c.combiners with
    | (l, rs1, st1) =>
      if selectsPrivately c.params c.partitions then
        .ok (.custom l (some (requestBudget rs1 .generic 1).1), (requestBudget rs1 .generic 1).2,
          callOps c.params.budgetWeight ((requestBudget rs1 .generic 1).2.drop rs.length), st1)
      else .ok (.custom l none, rs1, callOps c.params.budgetWeight (rs1.drop rs.length), st1)

/-- One step. -/
noncomputable def buildX (cls : ℕ → CustomClass V A O) (fmt : ℚ → String) (rs : List Request) (st : Store) :
    XStep R K V → Except Engine.Err (BuiltX × List Request × List Op × Store)
  | .step s =>
    match buildStep fmt rs s with
    | .error e => .error e
    | .ok (b, rs', ops) => .ok (.step b, rs', ops, st)
  | .custom c => buildCustom cls rs st c

/-- All steps: what they build, the calls on the accountant, and the fields of the combiners at the end.  `rs` are the requests and
`st` the fields before. -/
noncomputable def planX (cls : ℕ → CustomClass V A O) (fmt : ℚ → String) (rs : List Request) (st : Store) :
    List (XStep R K V) → Except Engine.Err (List BuiltX × List Op × Store)
  | [] => .ok ([], [], st)
  | c :: cs =>
    match buildX cls fmt rs st c with
    | .error e => .error e
    | .ok (b, rs', ops, st1) =>
      match planX cls fmt rs' st1 cs with
      | .error e => .error e
      | .ok (bs, ops', st') => .ok (b :: bs, ops ++ ops', st')

/-! ### Workers -/

/-- A combiner object with its fields read. -/
structure ReadyCombiner (V A O : Type) [MeasurableSpace O] where
  create : List V → A
  merge : A → A → A
  compute : A → Measure O

/-- `eps` and `delta` of budgets (`budget_accounting.py:54-84`). -/
noncomputable def readBudgets (s : Specs) : List ℕ → Except Err (List (ℝ × ℝ))
  | [] => .ok []
  | i :: is =>
    match computed (s i).eps, computed (s i).delta, readBudgets s is with
    | .ok e, .ok d, .ok l => .ok ((e, d) :: l)
    | .error e, _, _ => .error (.mechanism e)
    | _, .error e, _ => .error (.mechanism e)
    | _, _, .error e => .error e

/-- The object `o` as the workers use it, with the fields `st`. -/
noncomputable def ready (cls : ℕ → CustomClass V A O) (s : Specs) (st : Store) (o : ℕ) : Except Err (ReadyCombiner V A O) :=
  match st o with
  | none => .error .attributeError
  | some (p, is) =>
    match readBudgets s is with
    | .error e => .error e
    | .ok bs => .ok ⟨(cls o).create p, (cls o).merge p, (cls o).compute p bs⟩

/-- `CompoundCombiner.create_accumulator` (`combiners.py:749-753`). -/
def customCreate (cs : List (ReadyCombiner V A O)) (vs : List V) : ℕ × List A := (1, cs.map fun c => c.create vs)

/-- The loop over `zip(self._combiners, accumulator1, accumulator2)` (`combiners.py:761-763`). -/
def mergeEach : List (ReadyCombiner V A O) → List A → List A → List A
  | c :: cs, a :: as, b :: bs => c.merge a b :: mergeEach cs as bs
  | _, _, _ => []

/-- `CompoundCombiner.merge_accumulators` (`combiners.py:755-764`). -/
def customMerge (cs : List (ReadyCombiner V A O)) (x y : ℕ × List A) : ℕ × List A := (x.1 + y.1, mergeEach cs x.2 y.2)

/-- `CompoundCombiner.compute_metrics` without named tuple (`combiners.py:766-773`): distributions of the elements of the tuple. -/
noncomputable def customCompute (cs : List (ReadyCombiner V A O)) (x : ℕ × List A) : List (Measure O) :=
  List.zipWith (fun c a => c.compute a) cs x.2

/-- A partition that may be released: key, decision, and distributions of the elements of the tuple. -/
structure CustomCandidate (K O : Type) [MeasurableSpace O] where
  key : K
  gate : Gate
  outputs : List (Measure O)

/-- The decision for a partition with `n` rows (`dp_engine.py:157-186`); tuples have no field `privacy_id_count`
(`dp_engine.py:546-551`). -/
noncomputable def customGate (s : Specs) (p : Params) (sel : Option ℕ) (n : ℕ) : Except Err Gate :=
  if p.postThresholding then .error .attributeError
  else
    match sel with
    | none => .ok .always
    | some i =>
      match maxRowsPerId p, natArg p.maxPartitions with
      | .ok m, .ok l0 => selectGate s i p.strategy l0 p.preThreshold (divideAndRoundUp n m)
      | .error e, _ => .error (.engine e)
      | _, .error e => .error (.engine e)

/-- The rows extracted by a call. -/
def CustomCall.rows (pid : R → P) (c : CustomCall R K V) (data : List R) : List (P × K × V) :=
  data.map fun r => (pid r, c.key r, c.value r)

/-- `expects_per_partition_sampling` of the compound combiner (`combiners.py:796-797`). -/
def CustomCall.sampling (cls : ℕ → CustomClass V A O) (c : CustomCall R K V) : Bool := c.combiners.any fun o => (cls o).sampling

/-- The partitions that a call with custom combiners may release (`dp_engine.py:109-189`); `st` are the fields of the combiners when
the graph is evaluated. -/
noncomputable def evalCustom (cls : ℕ → CustomClass V A O) (s : Specs) (st : Store) (env : Env K) (pid : R → P) (sel : Option ℕ)
    (data : List R) (c : CustomCall R K V) : Except Err (List (CustomCandidate K O)) :=
  match c.combiners.mapM (ready cls s st) with
  | .error e => .error e
  | .ok cs =>
    match accumulators env.backend c.params (c.sampling cls) (customCreate cs) c.partitions (c.rows pid data) with
    | .error e => .error (.engine e)
    | .ok a => (env.combine (customMerge cs) a).mapM fun x =>
        match customGate s c.params sel x.2.1 with
        | .error e => .error e
        | .ok g => .ok ⟨x.1, g, customCompute cs x.2⟩

/-- The partitions that a step of C73 may release (`evalSteps`). -/
noncomputable def evalStep (sigma : ℝ → ℝ → ℝ → ℝ) (s : Specs) (env : Env K) (pid : R → P) (data : List R) :
    Step R K → BuiltStep → Except Err (List (Candidate K))
  | .call c, .call b => evalCall sigma s env pid b data c
  | .noise _ column, .noise i sens => noiseColumn sigma s i sens (column data)
  | _, _ => .ok []

/-- The partitions that a step may release: by the engine's own combiners, and by custom combiners. -/
noncomputable def evalXStep (cls : ℕ → CustomClass V A O) (sigma : ℝ → ℝ → ℝ → ℝ) (s : Specs) (st : Store) (env : Env K)
    (pid : R → P) (data : List R) : XStep R K V → BuiltX → Except Err (List (Candidate K) × List (CustomCandidate K O))
  | .step c, .step b =>
    match evalStep sigma s env pid data c b with
    | .error e => .error e
    | .ok x => .ok (x, [])
  | .custom c, .custom _ sel =>
    match evalCustom cls s st env pid sel data c with
    | .error e => .error e
    | .ok x => .ok ([], x)
  | _, _ => .ok ([], [])

/-- All steps. -/
noncomputable def evalX (cls : ℕ → CustomClass V A O) (sigma : ℝ → ℝ → ℝ → ℝ) (s : Specs) (st : Store) (env : ℕ → Env K)
    (pid : R → P) (data : List R) : ℕ → List (XStep R K V) → List BuiltX →
    Except Err (List (List (Candidate K) × List (CustomCandidate K O)))
  | j, c :: cs, b :: bs =>
    match evalXStep cls sigma s st (env j) pid data c b with
    | .error e => .error e
    | .ok x =>
      match evalX cls sigma s st env pid data (j + 1) cs bs with
      | .error e => .error e
      | .ok y => .ok (x :: y)
  | _, _, _ => .ok []

/-! ### Specification -/

/-- Merge of the accumulators made of several lists of values, in order; of no lists, the accumulator of no values. -/
def CustomClass.total (c : CustomClass V A O) (p : Params) : List (List V) → A
  | [] => c.create p []
  | x :: l => (l.map (c.create p)).foldl (c.merge p) (c.create p x)

/-- Budgets as the accountant publishes them for requests. -/
def ValidBudgets : List Request → List (ℝ × ℝ) → Prop :=
  List.Forall₂ fun r b => 0 < b.1 ∧ 0 ≤ b.2 ∧ (r.mechanism ≠ .laplace → 0 < b.2)

/-- **The responsibility of the author of a custom combiner** ("implement DP mechanism in `compute_metrics`; if needed implement
contribution bounding in `create_accumulator`", `combiners.py:97-100`): merging is associative and commutative; and for any budgets
that it gets, it is private with their sum.  `X k` and `Y k` are the lists of values given to `create_accumulator` in the partition
`k`; one privacy id adds the lists `E`, which are bounded by the parameters of the call (`UserEntries`: number of partitions, one
list per partition, and number of values if the combiner expects sampling). -/
structure CustomClass.Private (c : CustomClass V A O) (p : Params) : Prop where
  comm : ∀ a b, c.merge p a b = c.merge p b a
  assoc : ∀ a b d, c.merge p (c.merge p a b) d = c.merge p a (c.merge p b d)
  prob : ∀ bs, ValidBudgets (c.requests p) bs → ∀ a, IsProbabilityMeasure (c.compute p bs a)
  dp : ∀ bs, ValidBudgets (c.requests p) bs → ∀ {K : Type} [DecidableEq K] (X Y : K → List (List V)) (E : List (K × List V)),
    UserEntries p c.sampling E → (∀ k, (X k).Perm (valuesOf k E ++ Y k)) →
    Close (bs.map Prod.fst).sum (bs.map Prod.snd).sum (fun k => c.compute p bs (c.total p (X k)))
      (fun k => c.compute p bs (c.total p (Y k))) ∧
    Close (bs.map Prod.fst).sum (bs.map Prod.snd).sum (fun k => c.compute p bs (c.total p (Y k)))
      (fun k => c.compute p bs (c.total p (X k)))

/-- Calls with custom combiners for which the pipeline is shown to be private. -/
structure CustomCall.Supported (cls : ℕ → CustomClass V A O) (c : CustomCall R K V) : Prop where
  bounds : c.params.BoundsValid
  weight : 0 < c.params.budgetWeight
  noThresholding : c.params.postThresholding = false
  hidden : c.partitions = none → c.params.maxContributions = none ∧ c.params.publicFiltered = false
  nonempty : c.combiners ≠ []
  requests : ∀ o ∈ c.combiners, ∀ r ∈ (cls o).requests c.params, 0 < r.weight
  dp : ∀ o ∈ c.combiners, (cls o).Private c.params

/-- A supported step. -/
def XStep.Supported (cls : ℕ → CustomClass V A O) : XStep R K V → Prop
  | .step s => s.Supported
  | .custom c => c.Supported cls

/-- A supported step, also with percentiles. -/
def XStep.SupportedAny (cls : ℕ → CustomClass V A O) : XStep R K V → Prop
  | .step s => s.SupportedAny
  | .custom c => c.Supported cls

theorem XStep.Supported.any {cls : ℕ → CustomClass V A O} {c : XStep R K V} (h : c.Supported cls) : c.SupportedAny cls := by
  cases c with
  | step c => exact Step.Supported.any h
  | custom c => exact h

/-- The step needs a positive delta. -/
def XStep.NeedsDelta (cls : ℕ → CustomClass V A O) : XStep R K V → Prop
  | .step s => s.NeedsDelta
  | .custom c => c.partitions = none ∨ ∃ o ∈ c.combiners, ∃ r ∈ (cls o).requests c.params, r.mechanism ≠ .laplace

/-- What the caller promises on the data with and without the privacy id `u`. -/
def XStep.Promised (pid : R → P) (data : List R) (u : P) : XStep R K V → Prop
  | .step s => s.Promised pid data u
  | .custom c => CallerKeepsBounds c.params u (c.rows pid data) ∧
      (c.params.publicFiltered = true → ∀ ps, c.partitions = some ps → ∀ r ∈ data, c.key r ∈ ps)

/-- The combiner objects of a pipeline. -/
def XStep.objects : XStep R K V → List ℕ
  | .step _ => []
  | .custom c => c.combiners

/-- Decision on the partition `k`; a partition which is not a candidate is not released. -/
noncomputable def customDecision (lib : Library) (L : List (CustomCandidate K O)) (k : K) : Measure (Bool × ℝ) :=
  match L.find? fun c => c.key = k with
  | some c => c.gate.law lib
  | none => Measure.dirac (false, 0)

/-- Distribution of element `i` of the tuple of the partition `k`; `o0` stands for "no output". -/
noncomputable def customOutput (o0 : O) (L : List (CustomCandidate K O)) (k : K) (i : ℕ) : Measure O :=
  match L.find? fun c => c.key = k with
  | some c => c.outputs.getD i (Measure.dirac o0)
  | none => Measure.dirac o0

/-- What is observed of a pipeline: the releases of the engine's own combiners as in C62, and independently of them, for all
(step, partition) in `U`, whether the partition is released by the custom combiners of the step, and then the elements of its tuple
with positions in `T`. -/
noncomputable def observedX (lib : Library) (o0 : O) (U : Finset (ℕ × K)) (S : Finset (ℕ × ℕ)) (T : Finset ℕ)
    (L : List (List (Candidate K) × List (CustomCandidate K O))) :
    Measure (((U → Bool × ℝ) × (U × S → ℝ)) × ((U → Bool × ℝ) × (U × T → O))) :=
  (observedLaw lib U S (L.map Prod.fst)).prod
    (veiledLaw o0 U T (fun j => customDecision lib ((L.map Prod.snd).getD j [])) fun j => customOutput o0 ((L.map Prod.snd).getD j []))

end PDP.EndToEnd
