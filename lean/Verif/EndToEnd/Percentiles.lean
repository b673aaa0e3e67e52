import Verif.EndToEnd.Custom

/-!
# Pipelines with percentiles

As C74, with calls of `aggregate` whose metrics also have PERCENTILE (`combiners.py:589-669` `QuantileCombiner`).  PyDP's
`QuantileTree` is an external library: its contents are the multiset of the values added, and `compute_quantiles` is a parameter.
Budgets are requested as before (`planX`).
-/

set_option linter.unusedSectionVars false

namespace PDP.EndToEnd

open PDP PDP.Engine MeasureTheory
open PDP.Engine.Mechanism (computed)
open PDP.Approx (Indist)

variable {R P K V A O : Type} [DecidableEq P] [DecidableEq K] [MeasurableSpace O]

/-! ### The library -/

/-- The arguments of `QuantileTree` and `compute_quantiles`: bounds of values, budget, contribution bounds, quantiles between 0 and 1,
noise (`combiners.py:626-630, 655-658`); height 4 and branching factor 16 are always the same. -/
structure TreeArgs where
  lo : ℚ
  hi : ℚ
  eps : ℝ
  delta : ℝ
  l0 : ℕ
  linf : ℕ
  quantiles : List ℚ
  kind : NoiseKind

/-- `compute_quantiles` of PyDP: the joint distribution of the results, for given arguments and contents of the tree.  Position `n`
of the sequence is the result for the `n`-th quantile. -/
abbrev TreeLibrary := TreeArgs → Multiset ℚ → Measure (ℕ → ℝ)

/-- **What PyDP's quantile tree promises**: for trees of any partitions `i`, if a user adds at most `linf` values to each, and to at
most `l0` of them, then all results together are `(eps, delta)`-indistinguishable. -/
structure TreeContract (tree : TreeLibrary) : Prop where
  prob : ∀ a m, IsProbabilityMeasure (tree a m)
  dp : ∀ a : TreeArgs, a.lo < a.hi → 0 < a.eps → 0 ≤ a.delta → (a.kind = .gaussian → 0 < a.delta) → 1 ≤ a.l0 → 1 ≤ a.linf →
    ∀ {ι : Type} [Fintype ι] (x y w : ι → Multiset ℚ), (∀ i, x i = w i + y i) → (∀ i, (w i).card ≤ a.linf) →
    (Finset.univ.filter fun i => w i ≠ 0).card ≤ a.l0 →
    Indist a.eps a.delta (Measure.pi fun i => tree a (x i)) (Measure.pi fun i => tree a (y i)) ∧
    Indist a.eps a.delta (Measure.pi fun i => tree a (y i)) (Measure.pi fun i => tree a (x i))

/-! ### Workers -/

/-- The results of a `QuantileCombiner`: the position of its budget, the names, and the distribution of the values. -/
structure Quantiles where
  spec : ℕ
  names : List String
  law : Measure (ℕ → ℝ)

/-- `QuantileCombiner.compute_metrics` (`combiners.py:622-633`) for the percentiles `ps`, with the budget at position `i`, on a tree
with the contents `m`; quantiles are percentiles divided by 100 (`combiners.py:606`). -/
noncomputable def quantileOf (tree : TreeLibrary) (s : Specs) (p : Params) (i : ℕ) (ps : List ℚ) (m : Multiset ℚ) :
    Except Err (Measure (ℕ → ℝ)) :=
  match p.minValue, p.maxValue with
  | some lo, some hi =>
    match computed (s i).eps, computed (s i).delta, natArg p.maxPartitions, natArg p.maxPerPartition with
    | .ok e, .ok d, .ok l0, .ok linf => .ok (tree ⟨lo, hi, e, d, l0, linf, ps.map fun x => x / 100, p.noiseKind⟩ m)
    | .error e, _, _, _ => .error (.mechanism e)
    | _, .error e, _, _ => .error (.mechanism e)
    | _, _, .error e, _ => .error (.engine e)
    | _, _, _, .error e => .error (.engine e)
  | _, _ => .error (.engine .typeError)

/-- The results of all quantile combiners of a compound combiner (`combiners.py:766-788`), with their names
(`combiners.py:632-644`). -/
noncomputable def evalTrees (tree : TreeLibrary) (fmt : ℚ → String) (sigma : ℝ → ℝ → ℝ → ℝ) (s : Specs) (p : Params) :
    (parts : List Part) → Combiner.AccTuple (combinersOf sigma p parts) → Except Err (List Quantiles)
  | [], _ => .ok []
  | .quantile i ps :: parts, a =>
    match quantileOf tree s p i ps (show Multiset ℚ from a.1), evalTrees tree fmt sigma s p parts a.2 with
    | .ok μ, .ok y => .ok (⟨i, Part.names fmt (.quantile i ps), μ⟩ :: y)
    | .error e, _ => .error e
    | _, .error e => .error e
  | _ :: parts, a => evalTrees tree fmt sigma s p parts a.2

/-- A partition that may be released: key, decision and noisy numbers as before, and percentiles. -/
structure QCandidate (K : Type) where
  base : Candidate K
  quantiles : List Quantiles

/-- One partition of `aggregate`. -/
noncomputable def qCandidate (tree : TreeLibrary) (fmt : ℚ → String) (sigma : ℝ → ℝ → ℝ → ℝ) (s : Specs) (p : Params) (b : Built)
    (e : K × (Combiner.compound (combinersOf sigma p b.parts)).Acc) : Except Err (QCandidate K) :=
  match candidate sigma s p b e, evalTrees tree fmt sigma s p b.parts e.2.2 with
  | .ok c, .ok q => .ok ⟨c, q⟩
  | .error e, _ => .error e
  | _, .error e => .error e

/-- The partitions that a step may release (`evalStep`); only `aggregate` can have percentiles. -/
noncomputable def evalStepQ (tree : TreeLibrary) (fmt : ℚ → String) (sigma : ℝ → ℝ → ℝ → ℝ) (s : Specs) (env : Env K) (pid : R → P)
    (data : List R) : Step R K → BuiltStep → Except Err (List (QCandidate K))
  | .call (.aggregate p pub key value), .call b =>
    match partitionAccumulators env.backend (combinersOf sigma p b.parts) (env.combine (Combiner.compound _).merge)
        (fun _ _ => true) p pub (extract pid key value data) with
    | .error e => .error (.engine e)
    | .ok out => out.mapM (qCandidate tree fmt sigma s p b)
  | c, b =>
    match evalStep sigma s env pid data c b with
    | .error e => .error e
    | .ok x => .ok (x.map fun c => ⟨c, []⟩)

/-- The partitions that a step may release (`evalXStep`). -/
noncomputable def evalXStepQ (tree : TreeLibrary) (fmt : ℚ → String) (cls : ℕ → CustomClass V A O) (sigma : ℝ → ℝ → ℝ → ℝ) (s : Specs)
    (st : Store) (env : Env K) (pid : R → P) (data : List R) :
    XStep R K V → BuiltX → Except Err (List (QCandidate K) × List (CustomCandidate K O))
  | .step c, .step b =>
    match evalStepQ tree fmt sigma s env pid data c b with
    | .error e => .error e
    | .ok x => .ok (x, [])
  | .custom c, .custom _ sel =>
    match evalCustom cls s st env pid sel data c with
    | .error e => .error e
    | .ok x => .ok ([], x)
  | _, _ => .ok ([], [])

/-- All steps. -/
noncomputable def evalXQ (tree : TreeLibrary) (fmt : ℚ → String) (cls : ℕ → CustomClass V A O) (sigma : ℝ → ℝ → ℝ → ℝ) (s : Specs)
    (st : Store) (env : ℕ → Env K) (pid : R → P) (data : List R) : ℕ → List (XStep R K V) → List BuiltX →
    Except Err (List (List (QCandidate K) × List (CustomCandidate K O)))
  | j, c :: cs, b :: bs =>
    match evalXStepQ tree fmt cls sigma s st (env j) pid data c b with
    | .error e => .error e
    | .ok x =>
      match evalXQ tree fmt cls sigma s st env pid data (j + 1) cs bs with
      | .error e => .error e
      | .ok y => .ok (x :: y)
  | _, _, _ => .ok []

/-! ### Specification -/

/-- The names of the percentiles of a call are distinct (other calls are rejected, `combiners.py:742-744`). -/
def XStep.Named (fmt : ℚ → String) : XStep R K V → Prop
  | .step (.call (.aggregate p _ _ _)) => ((p.metrics.filterMap Metric.percentile?).map fmt).Nodup
  | _ => True

/-- Distribution of the results of the quantile combiner with the budget `i`; 0 stands for "no output". -/
noncomputable def QCandidate.law (c : QCandidate K) (i : ℕ) : Measure (ℕ → ℝ) :=
  match c.quantiles.find? fun q => q.spec = i with
  | some q => q.law
  | none => Measure.dirac 0

/-- Decision on the partition `k`, as in C62. -/
noncomputable def qDecision (lib : Library) (L : List (QCandidate K)) (k : K) : Measure (Bool × ℝ) :=
  decisionLaw lib (L.map QCandidate.base) k

/-- Outputs of a partition: the number with a label as in C62, or the results of the quantile combiner with the budget `i`. -/
inductive QLabel where
  | number (l : ℕ × ℕ)
  | quantiles (i : ℕ)
  deriving DecidableEq

/-- Distribution of an output of the partition `k`: of the number with the label `l` as in C62 (written as a constant sequence), or of
the results of the quantile combiner with the budget `i`. -/
noncomputable def qOutput (L : List (QCandidate K)) (k : K) : QLabel → Measure (ℕ → ℝ)
  | .number l => (numberLaw (L.map QCandidate.base) k l).map fun x _ => x
  | .quantiles i =>
    match L.find? fun c => c.base.key = k with
    | some c => c.law i
    | none => Measure.dirac 0

/-- What is observed of a pipeline: for all (step, partition) in `U` whether the partition is released by the engine's combiners, and
then its numbers and percentiles with labels in `S`; and the releases of custom combiners as in C74. -/
noncomputable def observedQ (lib : Library) (o0 : O) (U : Finset (ℕ × K)) (S : Finset QLabel) (T : Finset ℕ)
    (L : List (List (QCandidate K) × List (CustomCandidate K O))) :
    Measure (((U → Bool × ℝ) × (U × S → ℕ → ℝ)) × ((U → Bool × ℝ) × (U × T → O))) :=
  (veiledLaw 0 U S (fun j => qDecision lib ((L.map Prod.fst).getD j [])) fun j => qOutput ((L.map Prod.fst).getD j [])).prod
    (veiledLaw o0 U T (fun j => customDecision lib ((L.map Prod.snd).getD j [])) fun j => customOutput o0 ((L.map Prod.snd).getD j []))

end PDP.EndToEnd
