import Verif.EndToEnd.Documented
import Verif.EndToEnd.Releases
import Verif.EndToEnd.Accepted
import Verif.EndToEnd.CallsExample

/-!
# What the report says about noise and budgets (C90)

After `compute_budgets()` the stages of a report that describe partition selection and metrics are evaluated
(`report_generator.py:84-86`): `explain_computation()` of the combiners (`combiners.py:268-274, 310-316, 362-369, 425-431, 502-504,
583-584, 647-648, 793-794, 841-843`), `describe()` of their mechanisms (`dp_computations.py:475-477, 527-537, 570-575, 812-822`) and the
stage of partition selection (`dp_engine.py:367-371`).  The texts are modelled by the numbers and names in them; the other stages have no
numbers of the budget (C59), and the parameters are in C87.
-/

namespace PDP.EndToEnd

open PDP PDP.Engine
open PDP.Engine.Mechanism (Additive createThresholding computed noiseKind pyLaplace)
open PDP.Engine.AddNoise (specOf)
open PDP.Budget (State Op MechType)

variable {R P K : Type} [DecidableEq P] [DecidableEq K]

/-! ### Model -/

/-- Text of `describe()` of a Laplace or a Gaussian mechanism (`dp_computations.py:475-477, 527-537`). -/
inductive Described where
  | laplace (parameter eps l1 : ℝ)
  | gaussian (parameter : ℝ) (budget : Option (ℝ × ℝ)) (l2 : ℝ)

/-- Text of a stage with the budget: the metrics, or partition selection.  `none` is the text of `VectorSumCombiner`, whose
`explain_computation` lacks a `return` (`combiners.py:841-843`). -/
inductive Explanation where
  | count (m : Described)
  | privacyIdCount (m : Described)
  | sum (m : Described)
  | mean (middle : ℚ) (count sum : Described)
  | variance (eps delta : ℝ)
  | percentiles (percentiles : List ℚ) (eps delta : ℝ)
  | thresholding (strategy : Strategy) (threshold eps delta : ℝ) (preThreshold : Option ℕ)
  | selection (strategy : Strategy) (eps delta : ℝ) (preThreshold : Option ℕ)
  | none

/-- `epsilon` and `delta` of the PyDP object created for a spec by `create_additive_mechanism`
(`dp_computations.py:435-454, 486-506, 621-646`).  A Gaussian mechanism created from a standard deviation has no epsilon (0). -/
noncomputable def pyArgs (spec : Engine.Mechanism.Spec) : Except Engine.Mechanism.Err (ℝ × ℝ) :=
  match noiseKind spec.type, spec.std with
  | .error e, _ => .error e
  | .ok .laplace, some n => .ok (1 / (n / Real.sqrt 2), 0)
  | .ok .laplace, Option.none =>
    match computed spec.eps with
    | .ok e => .ok (e, 0)
    | .error e => .error e
  | .ok .gaussian, some _ => .ok (0, 0)
  | .ok .gaussian, Option.none =>
    match computed spec.eps, computed spec.delta with
    | .ok e, .ok d => .ok (e, d)
    | .error e, _ => .error e
    | _, .error e => .error e

open Classical in
/-- `describe()` of a mechanism, where PyDP's object has the given epsilon and delta (`dp_computations.py:475-477, 527-537`). -/
noncomputable def describe (eps delta : ℝ) : Additive → Described
  | .laplace b s => .laplace b eps s
  | .gaussian σ s => .gaussian σ (if 0 < eps then some (eps, delta) else Option.none) s

/-- `self.get_mechanism().describe()` (`combiners.py:183-186, 271-272`). -/
noncomputable def describeMechanism (sigma : ℝ → ℝ → ℝ → ℝ) (sens : Except Engine.Err Sens) (spec : Engine.Mechanism.Spec) :
    Except Err Described :=
  match additive sigma sens spec, pyArgs spec with
  | .ok m, .ok (e, d) => .ok (describe e d m)
  | .error e, _ => .error (.mechanism e)
  | _, .error e => .error (.mechanism e)

/-- `(eps={…} delta={…})` with the properties of the spec (`budget_accounting.py:54-84`). -/
noncomputable def shownBudget (spec : Engine.Mechanism.Spec) : Except Err (ℝ × ℝ) :=
  match computed spec.eps, computed spec.delta with
  | .ok e, .ok d => .ok (e, d)
  | .error e, _ => .error (.mechanism e)
  | _, .error e => .error (.mechanism e)

/-- `explain_computation` of the combiners, evaluated.  `cutoff` is the threshold that PyDP computes. -/
noncomputable def explainPart (sigma : ℝ → ℝ → ℝ → ℝ) (cutoff : Strategy → ℝ → ℝ → ℝ → Option ℕ → ℝ) (s : Specs) (p : Params) :
    Part → Except Err Explanation
  | .count i => (describeMechanism sigma (sensCount p) (s i)).map .count
  | .privacyIdCount i => (describeMechanism sigma (sensPrivacyIdCount p) (s i)).map .privacyIdCount
  | .sum i => (describeMechanism sigma (sensSum p) (s i)).map .sum
  | .mean c i _ =>
    match describeMechanism sigma (sensCount p) (s c), describeMechanism sigma (sensNormalizedSum p) (s i) with
    | .ok a, .ok b => .ok (.mean (middle (p.minValue.getD 0) (p.maxValue.getD 0)) a b)
    | .error e, _ => .error e
    | _, .error e => .error e
  | .variance i _ => (shownBudget (s i)).map fun b => .variance b.1 b.2
  | .quantile i ps => (shownBudget (s i)).map fun b => .percentiles ps b.1 b.2
  | .thresholding i =>
    match thresholdGate s p i 0 with
    | .ok (.threshold st e d l0 pre _) => .ok (.thresholding st (cutoff st e d l0 pre) e d pre)
    | .ok _ => .error .attributeError
    | .error e => .error e
  | .vectorSum _ => .ok .none

/-- The stage of partition selection (`dp_engine.py:367-371`); a pre-threshold 0 is not shown. -/
noncomputable def explainSelection (s : Specs) (i : ℕ) (st : Strategy) (pre : Option ℕ) : Except Err Explanation :=
  (shownBudget (s i)).map fun b => .selection st b.1 b.2 (pre.filter (· ≠ 0))

/-- `explain_computation` of the compound combiner (`combiners.py:793-794`), one stage per combiner. -/
noncomputable def explainParts (sigma : ℝ → ℝ → ℝ → ℝ) (cutoff : Strategy → ℝ → ℝ → ℝ → Option ℕ → ℝ) (s : Specs) (p : Params) :
    List Part → Except Err (List Explanation)
  | [] => .ok []
  | part :: parts =>
    match explainPart sigma cutoff s p part, explainParts sigma cutoff s p parts with
    | .ok x, .ok y => .ok (x :: y)
    | .error e, _ => .error e
    | _, .error e => .error e

/-- The stages of the report of a call that show budgets, in their order (`dp_engine.py:157-183, 236-290`): partition selection, then the
metrics. -/
noncomputable def explainCall (sigma : ℝ → ℝ → ℝ → ℝ) (cutoff : Strategy → ℝ → ℝ → ℝ → Option ℕ → ℝ) (s : Specs) (b : Built) :
    Call R K → Except Err (List Explanation)
  | .aggregate p _ _ _ =>
    match b.selection with
    | Option.none => explainParts sigma cutoff s p b.parts
    | some i =>
      match explainSelection s i p.strategy p.preThreshold, explainParts sigma cutoff s p b.parts with
      | .ok x, .ok y => .ok (x :: y)
      | .error e, _ => .error e
      | _, .error e => .error e
  | .select p _ =>
    match b.selection with
    | Option.none => .error (.engine .typeError)
    | some i => (explainSelection s i p.strategy p.preThreshold).map fun x => [x]

/-- The reports of all calls (`dp_engine.py:59-63`). -/
noncomputable def explainCalls (sigma : ℝ → ℝ → ℝ → ℝ) (cutoff : Strategy → ℝ → ℝ → ℝ → Option ℕ → ℝ) (s : Specs) :
    List (Call R K) → List Built → Except Err (List (List Explanation))
  | c :: cs, b :: bs =>
    match explainCall sigma cutoff s b c, explainCalls sigma cutoff s cs bs with
    | .ok x, .ok y => .ok (x :: y)
    | .error e, _ => .error e
    | _, .error e => .error e
  | _, _ => .ok []

/-! ### Specification -/

/-- A described mechanism is the mechanism `m`, and this is the noise for the described budget and sensitivity. -/
def Described.Describes (sigma : ℝ → ℝ → ℝ → ℝ) : Described → Additive → Prop
  | .laplace b e x, m => m = .laplace b x ∧ b = x / e
  | .gaussian σ budget x, m => m = .gaussian σ x ∧ ∀ e d, budget = some (e, d) → σ = sigma e d x

/-- The noise that a stage of the report states for the numbers of a partition: the mechanisms one by one, for VARIANCE only the budget, of
which each of its numbers uses a third. -/
def Explanation.States (sigma : ℝ → ℝ → ℝ → ℝ) : Explanation → List Additive → Prop
  | .count x, l => ∃ m, l = [m] ∧ x.Describes sigma m
  | .privacyIdCount x, l => ∃ m, l = [m] ∧ x.Describes sigma m
  | .sum x, l => ∃ m, l = [m] ∧ x.Describes sigma m
  | .mean _ x y, l => ∃ m n, l = [m, n] ∧ x.Describes sigma m ∧ y.Describes sigma n
  | .variance e d, l => ∀ m ∈ l, ∃ x, m = .laplace (x / (e / 3)) x ∨ m = .gaussian (sigma (e / 3) (d / 3) x) x
  | _, l => l = []

/-- The budget in the description of a mechanism; no delta is shown for Laplace noise, which needs none. -/
def Described.budget : Described → ℝ × ℝ
  | .laplace _ e _ => (e, 0)
  | .gaussian _ b _ => b.getD (0, 0)

/-- The budgets that a stage shows. -/
def Explanation.budgets : Explanation → List (ℝ × ℝ)
  | .count x => [x.budget]
  | .privacyIdCount x => [x.budget]
  | .sum x => [x.budget]
  | .mean _ x y => [x.budget, y.budget]
  | .variance e d => [(e, d)]
  | .percentiles _ e d => [(e, d)]
  | .thresholding _ _ e d _ => [(e, d)]
  | .selection _ e d _ => [(e, d)]
  | .none => []

/-! ### Noise -/

theorem computed_ok {x : Option ℝ} {y : ℝ} (h : computed x = .ok y) : x = some y := by
  cases x with
  | none => simp [computed] at h
  | some v => simp only [computed, Except.ok.injEq] at h; rw [h]

theorem describe_describes {sigma : ℝ → ℝ → ℝ → ℝ} {sens : Except Engine.Err Sens} {spec : Engine.Mechanism.Spec} {m : Additive}
    {x : Described} (h : additive sigma sens spec = .ok m) (hx : describeMechanism sigma sens spec = .ok x) : x.Describes sigma m := by
  unfold describeMechanism at hx
  rw [h] at hx
  cases sens with
  | error e => simp [additive] at h
  | ok z =>
    simp only [additive, Mechanism.createAdditive] at h
    unfold pyArgs at hx
    cases hk : noiseKind spec.type with
    | error e => rw [hk] at h; simp [bind, Except.bind] at h
    | ok k =>
      rw [hk] at h hx
      cases k with
      | laplace =>
        cases hl : z.l1 with
        | none => simp [hl, bind, Except.bind] at h
        | some l1 =>
          cases hstd : spec.std with
          | some n =>
            simp [hl, hstd, bind, Except.bind, pure, Except.pure, computed, Mechanism.laplaceFromStd, pyLaplace] at h hx
            subst h
            simp only [describe, Except.ok.injEq] at hx
            subst hx
            exact ⟨rfl, by simp⟩
          | none =>
            cases he : spec.eps with
            | none => simp [hl, hstd, he, bind, Except.bind, computed] at h
            | some e =>
              simp [hl, hstd, he, bind, Except.bind, pure, Except.pure, computed, Mechanism.laplaceFromEpsilon, pyLaplace] at h hx
              subst h
              simp only [describe, Except.ok.injEq] at hx
              subst hx
              exact ⟨rfl, rfl⟩
      | gaussian =>
        cases hl : z.l2 with
        | none => simp [hl, bind, Except.bind] at h
        | some l2 =>
          cases hstd : spec.std with
          | some n =>
            simp [hl, hstd, bind, Except.bind, pure, Except.pure, computed, Mechanism.gaussianFromStd] at h hx
            subst h
            simp only [describe, lt_irrefl, if_false] at hx
            subst hx
            exact ⟨rfl, by simp⟩
          | none =>
            cases he : spec.eps with
            | none => simp [hl, hstd, he, bind, Except.bind, computed] at h
            | some e =>
              cases hd : spec.delta with
              | none => simp [hl, hstd, he, hd, bind, Except.bind, computed] at h
              | some d =>
                simp [hl, hstd, he, hd, bind, Except.bind, pure, Except.pure, computed, Mechanism.gaussianFromEpsDelta] at h hx
                subst h
                simp only [describe] at hx
                subst hx
                refine ⟨rfl, fun e' d' h => ?_⟩
                split at h
                · simp only [Option.some.injEq, Prod.mk.injEq] at h
                  rw [← h.1, ← h.2]
                · simp at h

theorem evalView_mechs {s : Specs} {k : K} {v : View} {a : v.comb.Acc} {x : List (Noisy K)} (h : evalView s k v a = .ok x) :
    v.numbers.map (fun n => n.mech (s n.spec)) = (x.map Noisy.mech).map .ok := by
  unfold evalView at h
  revert x
  induction v.numbers with
  | nil => intro x h; simp [pure, Except.pure] at h; subst h; rfl
  | cons n ns ih =>
    intro x h
    rw [List.mapM_cons] at h
    cases hm : n.mech (s n.spec) with
    | error e => rw [hm] at h; simp [bind, Except.bind] at h
    | ok m =>
      rw [hm] at h
      cases hr : (ns.mapM fun n => do
          let m ← n.mech (s n.spec)
          return (⟨k, n.spec, n.comp, n.read a, m⟩ : Noisy K)) with
      | error e =>
        simp only [bind, Except.bind, pure, Except.pure] at h hr
        rw [hr] at h; simp at h
      | ok y =>
        have := ih hr
        simp only [bind, Except.bind, pure, Except.pure] at h hr
        rw [hr] at h
        simp only [Except.ok.injEq] at h
        subst h
        simp only [List.map_cons, hm, this]

theorem third_states {sigma : ℝ → ℝ → ℝ → ℝ} {kind : NoiseKind} {l0 linf : ℝ} {spec : Engine.Mechanism.Spec} {m : Additive} {e d : ℝ}
    (h : thirdOf sigma kind l0 linf spec = .ok m) (hb : shownBudget spec = .ok (e, d)) :
    ∃ x, m = .laplace (x / (e / 3)) x ∨ m = .gaussian (sigma (e / 3) (d / 3) x) x := by
  unfold shownBudget at hb
  unfold thirdOf at h
  cases he : computed spec.eps with
  | error err => rw [he] at hb; simp at hb
  | ok e' =>
    cases hd : computed spec.delta with
    | error err => rw [he, hd] at hb; simp at hb
    | ok d' =>
      rw [he, hd] at hb h
      simp only [Except.ok.injEq, Prod.mk.injEq] at hb
      obtain ⟨rfl, rfl⟩ := hb
      cases kind <;> simp only [bind, Except.bind, pure, Except.pure, Except.ok.injEq] at h
      · exact ⟨_, .inl h.symm⟩
      · exact ⟨_, .inr h.symm⟩

theorem part_states {sigma : ℝ → ℝ → ℝ → ℝ} {cutoff} {s : Specs} {p : Params} {part : Part} {x : Explanation}
    {l : List Additive} (hx : explainPart sigma cutoff s p part = .ok x)
    (h : (view sigma p part).numbers.map (fun n => n.mech (s n.spec)) = l.map .ok) : x.States sigma l := by
  have one : ∀ {sens : Except Engine.Err Sens} {spec : Engine.Mechanism.Spec} {d : Described},
      describeMechanism sigma sens spec = .ok d → [additive sigma sens spec] = l.map .ok → ∃ m, l = [m] ∧ d.Describes sigma m := by
    intro sens spec d hd hl
    rcases l with _ | ⟨m, l'⟩
    · simp at hl
    · simp only [List.map_cons, List.cons.injEq] at hl
      obtain rfl : l' = [] := by simpa using hl.2.symm
      exact ⟨m, rfl, describe_describes hl.1 hd⟩
  cases part with
  | count i =>
    simp only [explainPart] at hx
    cases hd : describeMechanism sigma (sensCount p) (s i) with
    | error e => rw [hd] at hx; simp [Except.map] at hx
    | ok d =>
      rw [hd] at hx
      simp only [Except.map, Except.ok.injEq] at hx
      subst hx
      exact one hd h
  | privacyIdCount i =>
    simp only [explainPart] at hx
    cases hd : describeMechanism sigma (sensPrivacyIdCount p) (s i) with
    | error e => rw [hd] at hx; simp [Except.map] at hx
    | ok d =>
      rw [hd] at hx
      simp only [Except.map, Except.ok.injEq] at hx
      subst hx
      exact one hd h
  | sum i =>
    simp only [explainPart] at hx
    cases hd : describeMechanism sigma (sensSum p) (s i) with
    | error e => rw [hd] at hx; simp [Except.map] at hx
    | ok d =>
      rw [hd] at hx
      simp only [Except.map, Except.ok.injEq] at hx
      subst hx
      refine one hd (.trans ?_ h)
      generalize hv : view sigma p (.sum i) = v
      simp only [view] at hv
      split at hv <;> (subst hv; rfl)
  | mean c i ns =>
    simp only [explainPart] at hx
    cases hc : describeMechanism sigma (sensCount p) (s c) with
    | error e => rw [hc] at hx; simp at hx
    | ok a =>
      cases hd : describeMechanism sigma (sensNormalizedSum p) (s i) with
      | error e => rw [hc, hd] at hx; simp at hx
      | ok b =>
        rw [hc, hd] at hx
        simp only [Except.ok.injEq] at hx
        subst hx
        simp only [view, List.map_cons, List.map_nil] at h
        rcases l with _ | ⟨m, _ | ⟨n, l'⟩⟩
        · simp at h
        · simp at h
        · simp only [List.map_cons, List.cons.injEq] at h
          obtain rfl : l' = [] := by simpa using h.2.2.symm
          exact ⟨m, n, rfl, describe_describes h.1 hc, describe_describes h.2.1 hd⟩
  | variance i ns =>
    simp only [explainPart] at hx
    cases hb : shownBudget (s i) with
    | error e => rw [hb] at hx; simp [Except.map] at hx
    | ok b =>
      rw [hb] at hx
      simp only [Except.map, Except.ok.injEq] at hx
      subst hx
      intro m hm
      have : (Except.ok m : Except Engine.Mechanism.Err Additive) ∈ l.map .ok := List.mem_map_of_mem hm
      rw [← h] at this
      simp only [view, List.map_cons, List.map_append, List.mem_cons, List.mem_append] at this
      rcases this with q | q | q
      · exact third_states q.symm hb
      · split at q
        · simp at q
        · simp only [List.map_cons, List.map_nil, List.mem_singleton] at q
          exact third_states q.symm hb
      · split at q
        · simp at q
        · simp only [List.map_cons, List.map_nil, List.mem_singleton] at q
          exact third_states q.symm hb
  | thresholding i =>
    simp only [view, List.map_nil] at h
    have hl : l = [] := by simpa using h.symm
    subst hl
    simp only [explainPart] at hx
    split at hx
    · simp only [Except.ok.injEq] at hx; subst hx; rfl
    · simp at hx
    · simp at hx
  | vectorSum i =>
    simp only [view, List.map_nil] at h
    have hl : l = [] := by simpa using h.symm
    subst hl
    simp only [explainPart, Except.ok.injEq] at hx
    subst hx; rfl
  | quantile i ps =>
    simp only [view, List.map_nil] at h
    have hl : l = [] := by simpa using h.symm
    subst hl
    simp only [explainPart] at hx
    cases hb : shownBudget (s i) with
    | error e => rw [hb] at hx; simp [Except.map] at hx
    | ok b =>
      rw [hb] at hx
      simp only [Except.map, Except.ok.injEq] at hx
      subst hx; rfl

theorem parts_state {sigma : ℝ → ℝ → ℝ → ℝ} {cutoff} {s : Specs} {p : Params} {k : K} : ∀ {parts : List Part}
    {a : Combiner.AccTuple (combinersOf sigma p parts)} {l : List (Noisy K)} {E : List Explanation},
    evalParts sigma s p k parts a = .ok l → explainParts sigma cutoff s p parts = .ok E →
    ∃ ls : List (List Additive), List.Forall₂ (Explanation.States sigma) E ls ∧ l.map Noisy.mech = ls.flatten := by
  intro parts
  induction parts with
  | nil =>
    intro a l E h hE
    simp only [evalParts, Except.ok.injEq] at h
    simp only [explainParts, Except.ok.injEq] at hE
    subst h hE
    exact ⟨[], .nil, rfl⟩
  | cons part parts ih =>
    intro a l E h hE
    simp only [explainParts] at hE
    cases h1 : explainPart sigma cutoff s p part with
    | error e => rw [h1] at hE; simp at hE
    | ok x =>
      cases h2 : explainParts sigma cutoff s p parts with
      | error e => rw [h1, h2] at hE; simp at hE
      | ok E' =>
        rw [h1, h2] at hE
        simp only [Except.ok.injEq] at hE
        subst hE
        simp only [evalParts] at h
        cases h3 : evalView s k (view sigma p part) a.1 with
        | error e => rw [h3] at h; simp [bind, Except.bind] at h
        | ok y =>
          cases h4 : evalParts sigma s p k parts a.2 with
          | error e => rw [h3, h4] at h; simp [bind, Except.bind] at h
          | ok z =>
            rw [h3, h4] at h
            simp only [bind, Except.bind, pure, Except.pure, Except.ok.injEq] at h
            subst h
            obtain ⟨ls, i1, i2⟩ := ih h4 h2
            exact ⟨y.map Noisy.mech :: ls, .cons (part_states h1 (evalView_mechs h3)) i1, by
              rw [List.map_append, i2, List.flatten_cons]⟩

/-! ### Budgets -/

theorem described_budget (sigma : ℝ → ℝ → ℝ → ℝ) {kind : NoiseKind} {ε δ : ℕ → ℝ} {s : Specs} {i : ℕ}
    (hs : SpecOk s ε δ i kind.mechanism) (hl : kind.mechanism = .laplace → δ i = 0) {sens : Except Engine.Err Sens} {l : ℝ × ℝ}
    (h : ∃ z, sens = .ok z ∧ z.l1 = some l.1 ∧ z.l2 = some l.2) :
    ∃ x, describeMechanism sigma sens (s i) = .ok x ∧ x.budget = (ε i, δ i) := by
  unfold describeMechanism
  rw [additive_noise sigma hs (c := 0) (x := 0) h]
  have hpos := hs.eps
  cases kind with
  | laplace =>
    have : pyArgs (s i) = .ok (ε i, 0) := by rw [hs.eq]; rfl
    rw [this]
    exact ⟨_, rfl, by simp [Documented.noise, describe, Described.budget, hl rfl]⟩
  | gaussian =>
    have : pyArgs (s i) = .ok (ε i, δ i) := by rw [hs.eq]; rfl
    rw [this]
    exact ⟨_, rfl, by simp [Documented.noise, describe, Described.budget, hpos]⟩

theorem shownBudget_ok {s : Specs} {ε δ : ℕ → ℝ} {i : ℕ} {m : Engine.Mechanism} (hs : SpecOk s ε δ i m) :
    shownBudget (s i) = .ok (ε i, δ i) := by
  rw [hs.eq]; rfl

theorem part_explained (sigma : ℝ → ℝ → ℝ → ℝ) (cutoff) {ε δ : ℕ → ℝ} {s : Specs} {p : Params} (hp : p.BoundsValid) {part : Part}
    (hok : PartOkAny p part) (hsp : ∀ i ∈ part.specs, SpecOk s ε δ i (part.mechanism p.noiseKind))
    (hl : ∀ i ∈ part.specs, part.mechanism p.noiseKind = .laplace → δ i = 0)
    (hth : (∃ i, part = .thresholding i) → p.maxContributions = none) :
    ∃ x, explainPart sigma cutoff s p part = .ok x ∧ x.budgets = part.specs.map fun i => (ε i, δ i) := by
  rcases hok with hok | ⟨i, rfl⟩ | ⟨i, ps, rfl⟩
  · cases part with
    | count i =>
      obtain ⟨x, h1, h2⟩ := described_budget sigma (hsp i (by simp [Part.specs])) (hl i (by simp [Part.specs])) (sensCount_val hp)
      exact ⟨.count x, by simp only [explainPart, h1, Except.map], by simp [Explanation.budgets, h2, Part.specs]⟩
    | privacyIdCount i =>
      obtain ⟨x, h1, h2⟩ := described_budget sigma (hsp i (by simp [Part.specs])) (hl i (by simp [Part.specs])) (sensPid_val hp)
      exact ⟨.privacyIdCount x, by simp only [explainPart, h1, Except.map], by simp [Explanation.budgets, h2, Part.specs]⟩
    | sum i =>
      obtain ⟨x, h1, h2⟩ : ∃ x, describeMechanism sigma (sensSum p) (s i) = .ok x ∧ x.budget = (ε i, δ i) := by
        rcases hok with ⟨lo, hi', q1, q2, q3, q4, q5⟩ | ⟨lo, hi', q1, q2, q3, q4, q5, q6, q7⟩
        · exact described_budget sigma (hsp i (by simp [Part.specs])) (hl i (by simp [Part.specs])) (sensSum_val hp q1 q2 q4)
        · exact described_budget sigma (hsp i (by simp [Part.specs])) (hl i (by simp [Part.specs]))
            (sensSum_partition_val hp q6 q1 q2 q5 q4)
      exact ⟨.sum x, by simp only [explainPart, h1, Except.map], by simp [Explanation.budgets, h2, Part.specs]⟩
    | mean c i ns =>
      obtain ⟨lo, hi', q1, q2, q3⟩ := hok
      obtain ⟨x, h1, h2⟩ := described_budget sigma (hsp c (by simp [Part.specs])) (hl c (by simp [Part.specs])) (sensCount_val hp)
      obtain ⟨y, h3, h4⟩ := described_budget sigma (hsp i (by simp [Part.specs])) (hl i (by simp [Part.specs]))
        (sensNormalizedSum_val hp q1 q2 q3)
      exact ⟨.mean (middle (p.minValue.getD 0) (p.maxValue.getD 0)) x y, by simp only [explainPart, h1, h3], by simp [Explanation.budgets, h2, h4, Part.specs]⟩
    | variance i ns =>
      exact ⟨.variance (ε i) (δ i), by simp only [explainPart, shownBudget_ok (hsp i (by simp [Part.specs])), Except.map],
        by simp [Explanation.budgets, Part.specs]⟩
    | thresholding i => exact hok.elim
    | vectorSum i => exact hok.elim
    | quantile i ps => exact hok.elim
  · have hmc := hth ⟨i, rfl⟩
    have hsi := hsp i (by simp [Part.specs])
    obtain ⟨l0, m, hl0, -, hl0p, -⟩ := maxRows_ok hp hmc
    obtain ⟨st, hst⟩ : ∃ st, ∀ sn, createThresholding (s i) sn = .ok (st, ε i, δ i, sn.l0) := by
      rw [hsi.eq]
      cases hk : p.noiseKind
      · exact ⟨.laplaceThresholding, fun sn => rfl⟩
      · exact ⟨.gaussianThresholding, fun sn => rfl⟩
    obtain ⟨sn, hsn, hl0s⟩ : ∃ sn, sensPrivacyIdCount p = .ok sn ∧ sn.l0 = some (l0 : ℝ) := by
      unfold sensPrivacyIdCount
      rw [hmc, hl0p]
      have h1 : (0 : ℝ) < l0 := by exact_mod_cast hl0
      simp [mkSens, positiveOrNone, h1]
    have hg : thresholdGate s p i 0 = .ok (.threshold st (ε i) (δ i) l0 p.preThreshold 0) := by
      simp only [thresholdGate, hsn, hst, hl0s]
    exact ⟨.thresholding st (cutoff st (ε i) (δ i) l0 p.preThreshold) (ε i) (δ i) p.preThreshold,
      by simp only [explainPart, hg], by simp [Explanation.budgets, Part.specs]⟩
  · exact ⟨.percentiles ps (ε i) (δ i), by simp only [explainPart, shownBudget_ok (hsp i (by simp [Part.specs])), Except.map],
      by simp [Explanation.budgets, Part.specs]⟩

theorem parts_explained (sigma : ℝ → ℝ → ℝ → ℝ) (cutoff) {ε δ : ℕ → ℝ} {s : Specs} {p : Params} {parts : List Part}
    (h : ∀ part ∈ parts, ∃ x, explainPart sigma cutoff s p part = .ok x ∧ x.budgets = part.specs.map fun i => (ε i, δ i)) :
    ∃ E, explainParts sigma cutoff s p parts = .ok E ∧
      E.flatMap Explanation.budgets = (parts.flatMap Part.specs).map fun i => (ε i, δ i) := by
  induction parts with
  | nil => exact ⟨[], rfl, rfl⟩
  | cons part parts ih =>
    obtain ⟨x, h1, h2⟩ := h part (by simp)
    obtain ⟨E, h3, h4⟩ := ih fun q hq => h q (by simp [hq])
    exact ⟨x :: E, by simp only [explainParts, h1, h3], by
      rw [List.flatMap_cons, h2, h4, List.flatMap_cons, List.map_append]⟩

theorem call_explained (sigma : ℝ → ℝ → ℝ → ℝ) (cutoff) {ε δ : ℕ → ℝ} {s : Specs} {fmt : ℚ → String} {rs rs' : List Request}
    {c : Call R K} (hc : c.Supported) {b : Built} (hb : build fmt rs c = (.ok b, rs')) (hbo : BuiltOk s ε δ c.kind b)
    (hl : ∀ part ∈ b.parts, ∀ i ∈ part.specs, part.mechanism c.kind = .laplace → δ i = 0) :
    ∃ E, explainCall sigma cutoff s b c = .ok E ∧
      (E.flatMap Explanation.budgets).Perm (b.specs.map fun i => (ε i, δ i)) := by
  cases c with
  | aggregate p pub key value =>
    have hs : SupportedAggregate p pub := hc
    obtain ⟨⟨rs1, hcc⟩, hsel⟩ := build_aggregate hb
    obtain ⟨hok, -⟩ := parts_ok_any hs.any hcc
    have hcases := (part_cases (fun hm => by simpa using hs.metrics _ hm) hcc).1
    obtain ⟨E, h1, h2⟩ := parts_explained sigma cutoff (ε := ε) (δ := δ) (s := s) (p := p) (parts := b.parts) fun part hpart =>
      part_explained sigma cutoff hs.bounds (hok part hpart) (hbo.parts part hpart) (hl part hpart) (by
        rintro ⟨i, rfl⟩
        have := hcases _ hpart
        exact (hs.hidden (hs.thresholding this).1).1)
    cases hb : b.selection with
    | none =>
      refine ⟨E, by simp only [explainCall, hb, h1], ?_⟩
      rw [h2, Built.specs, hb]
      simp
    | some i =>
      refine ⟨.selection p.strategy (ε i) (δ i) (p.preThreshold.filter (· ≠ 0)) :: E, ?_, ?_⟩
      · simp only [explainCall, hb, h1, explainSelection, shownBudget_ok (hbo.selection i hb), Except.map]
      · rw [List.flatMap_cons, h2, Built.specs, hb]
        simp only [Explanation.budgets, Option.toList_some, List.map_append, List.map_cons, List.map_nil]
        exact List.perm_append_comm
  | select p key =>
    simp only [build, Prod.mk.injEq, Except.ok.injEq] at hb
    obtain ⟨rfl, -⟩ := hb
    refine ⟨[.selection p.strategy (ε rs.length) (δ rs.length) (p.preThreshold.filter (· ≠ 0))], ?_, ?_⟩
    · have := shownBudget_ok (hbo.selection rs.length rfl)
      simp only [explainCall, requestBudget, explainSelection, this, Except.map]
    · simp [Explanation.budgets, Built.specs, requestBudget]

theorem calls_explained (sigma : ℝ → ℝ → ℝ → ℝ) (cutoff) {ε δ : ℕ → ℝ} {s : Specs} {fmt : ℚ → String} {cs : List (Call R K)}
    (hs : ∀ c ∈ cs, c.Supported) : ∀ {rs : List Request} {bs ops}, planCalls fmt rs cs = .ok (bs, ops) →
      (∀ x ∈ cs.zip bs, BuiltOk s ε δ x.1.kind x.2) →
      (∀ x ∈ cs.zip bs, ∀ part ∈ x.2.parts, ∀ i ∈ part.specs, part.mechanism x.1.kind = .laplace → δ i = 0) →
      ∃ Es, explainCalls sigma cutoff s cs bs = .ok Es ∧
        List.Forall₂ (fun x E => (E.flatMap Explanation.budgets).Perm (x.2.specs.map fun i => (ε i, δ i))) (cs.zip bs) Es := by
  induction cs with
  | nil =>
    intro rs bs ops h _ _
    simp only [planCalls, Except.ok.injEq, Prod.mk.injEq] at h
    obtain ⟨rfl, rfl⟩ := h
    exact ⟨[], rfl, .nil⟩
  | cons c cs ih =>
    intro rs bs ops h hbo hl
    rcases hx : build fmt rs c with ⟨r, rs'⟩
    rw [planCalls, hx] at h
    rcases r with e | b
    · simp at h
    · dsimp only at h
      rcases hp : planCalls fmt rs' cs with e | ⟨bs', ops'⟩
      · rw [hp] at h; simp at h
      · rw [hp] at h
        simp only [Except.ok.injEq, Prod.mk.injEq] at h
        obtain ⟨rfl, rfl⟩ := h
        obtain ⟨E, h1, h2⟩ := call_explained sigma cutoff (hs c (by simp)) hx (hbo (c, b) (by simp)) (hl (c, b) (by simp))
        obtain ⟨Es, h3, h4⟩ := ih (fun c hc => hs c (by simp [hc])) hp (fun x hx => hbo x (by simp [hx]))
          (fun x hx => hl x (by simp [hx]))
        exact ⟨E :: Es, by simp only [explainCalls, h1, h3], .cons h2 h4⟩

theorem forall₂_mem_right {α β : Type} {r : α → β → Prop} {l : List α} {l' : List β} (h : List.Forall₂ r l l') :
    ∀ y ∈ l', ∃ x ∈ l, r x y := by
  induction h with
  | nil => simp
  | cons h _ ih =>
    intro y hy
    rcases List.mem_cons.1 hy with rfl | hy
    · exact ⟨_, by simp, h⟩
    · obtain ⟨x, hx, hr⟩ := ih y hy
      exact ⟨x, by simp [hx], hr⟩

/-! ### Properties -/

/-- **C90.**  The report of a call states the noise of all numbers that the call releases, for every partition: in the order of the metrics
the mechanism of each number of COUNT, PRIVACY_ID_COUNT, SUM and MEAN with its parameter and sensitivity, and the budget for which this is
the noise; for VARIANCE the budget of which each of its numbers has a third. -/
theorem C90_report_states_the_noise (sigma : ℝ → ℝ → ℝ → ℝ) (cutoff) (s : Specs) (env : Env K) (pid : R → P) (b : Built)
    (data : List R) (c : Call R K) {L : List (Candidate K)} {E : List Explanation}
    (hL : evalCall sigma s env pid b data c = .ok L) (hE : explainCall sigma cutoff s b c = .ok E) :
    ∀ x ∈ L, ∃ ls : List (List Additive), List.Forall₂ (Explanation.States sigma) E ls ∧ x.numbers.map Noisy.mech = ls.flatten := by
  intro x hx
  cases c with
  | aggregate p pub key value =>
    simp only [evalCall] at hL
    split at hL
    · simp at hL
    · rename_i out _
      obtain ⟨e, -, he⟩ := forall₂_mem_right (mapM_inv hL) x hx
      unfold candidate at he
      split at he
      · rename_i g l hg hl
        simp only [Except.ok.injEq] at he
        subst he
        simp only [explainCall] at hE
        cases hsel : b.selection with
        | none => rw [hsel] at hE; exact parts_state hl hE
        | some i =>
          rw [hsel] at hE
          dsimp only at hE
          split at hE
          · rename_i y E' h1 h2
            simp only [Except.ok.injEq] at hE
            subst hE
            obtain ⟨ls, i1, i2⟩ := parts_state hl h2
            refine ⟨[] :: ls, .cons ?_ i1, by simpa using i2⟩
            unfold explainSelection at h1
            cases hb : shownBudget (s i) with
            | error e => rw [hb] at h1; simp [Except.map] at h1
            | ok bd => rw [hb] at h1; simp only [Except.map, Except.ok.injEq] at h1; subst h1; rfl
          · simp at hE
          · simp at hE
      · simp at he
      · simp at he
  | select p key =>
    simp only [evalCall] at hL
    simp only [explainCall] at hE
    cases hsel : b.selection with
    | none => rw [hsel] at hL; simp at hL
    | some i =>
      rw [hsel] at hL hE
      dsimp only at hL hE
      obtain ⟨e, -, he⟩ := forall₂_mem_right (mapM_inv hL) x hx
      split at he
      · simp only [Except.ok.injEq] at he
        subst he
        unfold explainSelection at hE
        cases hb : shownBudget (s i) with
        | error e => rw [hb] at hE; simp [Except.map] at hE
        | ok bd =>
          rw [hb] at hE
          simp only [Except.map, Except.ok.injEq] at hE
          subst hE
          exact ⟨[[]], .cons rfl .nil, rfl⟩
      · simp at he

theorem explainParts_mem {sigma : ℝ → ℝ → ℝ → ℝ} {cutoff} {s : Specs} {p : Params} {parts : List Part} {E : List Explanation}
    (h : explainParts sigma cutoff s p parts = .ok E) :
    List.Forall₂ (fun part x => explainPart sigma cutoff s p part = .ok x) parts E := by
  induction parts generalizing E with
  | nil => simp only [explainParts, Except.ok.injEq] at h; subst h; exact .nil
  | cons part parts ih =>
    simp only [explainParts] at h
    split at h
    · rename_i x y h1 h2
      simp only [Except.ok.injEq] at h
      subst h
      exact .cons h1 (ih h2)
    · simp at h
    · simp at h

theorem explainSelection_ok {s : Specs} {i : ℕ} {st : Strategy} {pre : Option ℕ} {x : Explanation}
    (h : explainSelection s i st pre = .ok x) :
    ∃ e d, (s i).eps = some e ∧ (s i).delta = some d ∧ x = .selection st e d (pre.filter (· ≠ 0)) := by
  unfold explainSelection shownBudget at h
  split at h
  · rename_i e d h1 h2
    simp only [Except.map, Except.ok.injEq] at h
    exact ⟨e, d, computed_ok h1, computed_ok h2, h.symm⟩
  · simp [Except.map] at h
  · simp [Except.map] at h

theorem selectGate_ok {s : Specs} {i : ℕ} {st : Strategy} {l0 : ℕ} {pre : Option ℕ} {n : ℕ} {g : Gate}
    (h : selectGate s i st l0 pre n = .ok g) :
    ∃ e d, (s i).eps = some e ∧ (s i).delta = some d ∧ g = .select st e d l0 pre n := by
  unfold selectGate at h
  split at h
  · rename_i e d h1 h2
    simp only [Except.ok.injEq] at h
    exact ⟨e, d, computed_ok h1, computed_ok h2, h.symm⟩
  · simp at h
  · simp at h

/-- The stages of the report that describe a decision: none for a partition that is always kept. -/
def Gate.Stated (cutoff : Strategy → ℝ → ℝ → ℝ → Option ℕ → ℝ) (E : List Explanation) : Gate → Prop
  | .always => ∀ st e d pre, .selection st e d pre ∉ E
  | .select st e d _ pre _ => .selection st e d (pre.filter (· ≠ 0)) ∈ E
  | .threshold st e d l0 pre _ => .thresholding st (cutoff st e d l0 pre) e d pre ∈ E ∧ ∀ st e d pre, .selection st e d pre ∉ E

theorem no_selection {sigma : ℝ → ℝ → ℝ → ℝ} {cutoff} {s : Specs} {p : Params} {parts : List Part} {E : List Explanation}
    (h : explainParts sigma cutoff s p parts = .ok E) : ∀ st e d pre, .selection st e d pre ∉ E := by
  intro st e d pre hm
  obtain ⟨part, -, hx⟩ := forall₂_mem_right (explainParts_mem h) _ hm
  cases part with
  | thresholding i =>
    simp only [explainPart] at hx
    split at hx <;> simp at hx
  | mean c i ns =>
    simp only [explainPart] at hx
    split at hx <;> simp at hx
  | vectorSum i => simp [explainPart] at hx
  | _ =>
    simp only [explainPart, Except.map] at hx
    split at hx <;> simp at hx

theorem thresholdPart_mem (σ : ℝ → ℝ → ℝ → ℝ) (p : Params) (parts : List Part)
    (a : Combiner.AccTuple (combinersOf σ p parts)) {i n : ℕ} (h : thresholdPart σ p parts a = some (i, n)) :
    .thresholding i ∈ parts := by
  induction parts with
  | nil => simp [thresholdPart] at h
  | cons part parts ih =>
    cases part with
    | thresholding j =>
      simp only [thresholdPart, Option.some.injEq] at h
      have : j = i := congrArg Prod.fst h
      simp [this]
    | _ =>
      simp only [thresholdPart] at h
      exact List.mem_cons_of_mem _ (ih a.2 h)

/-- **C90** (selection).  The report states how the call decides about its partitions: for private selection the strategy, the budget and
the pre-threshold with which every decision is made; for thresholding the mechanism, its threshold, its budget and the pre-threshold; and it
has no stage of private selection if partitions are not selected by one. -/
theorem C90_report_states_the_selection (sigma : ℝ → ℝ → ℝ → ℝ) (cutoff) (s : Specs) (env : Env K) (pid : R → P) (b : Built)
    (data : List R) (c : Call R K) {L : List (Candidate K)} {E : List Explanation}
    (hL : evalCall sigma s env pid b data c = .ok L) (hE : explainCall sigma cutoff s b c = .ok E) :
    ∀ x ∈ L, Gate.Stated cutoff E x.gate := by
  intro x hx
  cases c with
  | aggregate p pub key value =>
    simp only [evalCall] at hL
    split at hL
    · simp at hL
    · rename_i out _
      obtain ⟨e, -, he⟩ := forall₂_mem_right (mapM_inv hL) x hx
      unfold candidate at he
      split at he
      · rename_i g l hg hl
        simp only [Except.ok.injEq] at he
        subst he
        simp only [explainCall] at hE
        unfold gateOf at hg
        cases hsel : b.selection with
        | none =>
          rw [hsel] at hE hg
          dsimp only at hE hg
          split at hg
          · split at hg
            · rename_i i n hth
              have hmem := thresholdPart_mem _ _ _ _ hth
              obtain ⟨y, hy, hy'⟩ : ∃ y ∈ E, explainPart sigma cutoff s p (.thresholding i) = .ok y := by
                have := (explainParts_mem hE).flip
                exact forall₂_mem_right this _ hmem
              have h0 : ∃ st e d l0, thresholdGate s p i n = .ok (.threshold st e d l0 p.preThreshold n) ∧
                  thresholdGate s p i 0 = .ok (.threshold st e d l0 p.preThreshold 0) := by
                unfold thresholdGate at hg ⊢
                split at hg
                · simp at hg
                · rename_i sn hsn
                  split at hg
                  · simp at hg
                  · simp at hg
                  · rename_i st e d l0 hc
                    exact ⟨st, e, d, l0, by simp only [hc], by simp only [hc]⟩
              obtain ⟨st, e, d, l0, h1, h2⟩ := h0
              rw [h1] at hg
              simp only [Except.ok.injEq] at hg
              subst hg
              simp only [explainPart, h2, Except.ok.injEq] at hy'
              subst hy'
              exact ⟨hy, no_selection hE⟩
            · simp at hg
          · simp only [Except.ok.injEq] at hg
            subst hg
            exact no_selection hE
        | some i =>
          rw [hsel] at hE hg
          dsimp only at hE hg
          split at hE
          · rename_i y E' h1 h2
            simp only [Except.ok.injEq] at hE
            subst hE
            obtain ⟨e1, d1, i1, i2, rfl⟩ := explainSelection_ok h1
            split at hg
            · obtain ⟨e2, d2, j1, j2, rfl⟩ := selectGate_ok hg
              rw [i1, Option.some.injEq] at j1
              rw [i2, Option.some.injEq] at j2
              subst j1 j2
              exact List.mem_cons_self
            · simp at hg
            · simp at hg
          · simp at hE
          · simp at hE
      · simp at he
      · simp at he
  | select p key =>
    simp only [evalCall] at hL
    simp only [explainCall] at hE
    cases hsel : b.selection with
    | none => rw [hsel] at hL; simp at hL
    | some i =>
      rw [hsel] at hL hE
      dsimp only at hL hE
      obtain ⟨e, -, he⟩ := forall₂_mem_right (mapM_inv hL) x hx
      split at he
      · rename_i g hg
        simp only [Except.ok.injEq] at he
        subst he
        cases hy : explainSelection s i p.strategy p.preThreshold with
        | error e => rw [hy] at hE; simp [Except.map] at hE
        | ok y =>
          rw [hy] at hE
          simp only [Except.map, Except.ok.injEq] at hE
          subst hE
          obtain ⟨e1, d1, i1, i2, rfl⟩ := explainSelection_ok hy
          obtain ⟨e2, d2, j1, j2, rfl⟩ := selectGate_ok hg
          rw [i1, Option.some.injEq] at j1
          rw [i2, Option.some.injEq] at j2
          subst j1 j2
          exact List.mem_cons_self
      · simp at he

/-! ### The budgets of a pipeline -/

theorem mechAt_part {x : Call R K × Built} {rs : List Request} (h : x.2.Requested x.1.kind rs) {part : Part} (hpart : part ∈ x.2.parts)
    {i : ℕ} (hi : i ∈ part.specs) : mechAt x i = part.mechanism x.1.kind := by
  obtain ⟨w, hw⟩ := h.parts part hpart i hi
  unfold mechAt
  split
  · rename_i hsel
    obtain ⟨w', hw'⟩ := h.selection i hsel
    rw [hw] at hw'
    simp only [Option.some.injEq, Request.mk.injEq] at hw'
    exact hw'.1.symm
  · cases hf : x.2.parts.find? fun part => decide (i ∈ part.specs) with
    | none =>
      rw [List.find?_eq_none] at hf
      exact absurd hi (by simpa using hf part hpart)
    | some part' =>
      have h1 := List.mem_of_find?_eq_some hf
      have h2 : i ∈ part'.specs := by simpa using List.find?_some hf
      obtain ⟨w', hw'⟩ := h.parts part' h1 i h2
      rw [hw] at hw'
      simp only [Option.some.injEq, Request.mk.injEq] at hw'
      exact hw'.1.symm

theorem forall₂_with_mem {α β : Type} {r : α → β → Prop} {l : List α} {l' : List β} (h : List.Forall₂ r l l') :
    List.Forall₂ (fun x y => x ∈ l ∧ r x y) l l' := by
  induction h with
  | nil => exact .nil
  | cons h _ ih => exact .cons ⟨by simp, h⟩ (ih.imp fun x y hxy => ⟨by simp [hxy.1], hxy.2⟩)

theorem sum_cast {α : Type} (l : List α) (f : α → ℚ) : (l.map fun a => ((f a : ℚ) : ℝ)).sum = (((l.map f).sum : ℚ) : ℝ) := by
  induction l with
  | nil => simp
  | cons a l ih => simp [ih]

theorem flatMap_sum {α β : Type} (l : List α) (f : α → List β) (g : β → ℝ) :
    ((l.flatMap f).map g).sum = (l.map fun a => ((f a).map g).sum).sum := by
  induction l with
  | nil => rfl
  | cons a l ih => simp [ih]

theorem sum_shares {α : Type} (l : List α) (f : α → ℚ) (q : α → Bool) (d t : ℚ) :
    (l.map fun y => if q y = true then d * f y / t else 0).sum = d * ((l.filter q).map f).sum / t := by
  induction l with
  | nil => simp
  | cons y l ih =>
    rw [List.map_cons, List.sum_cons, ih, List.filter_cons]
    split
    · rw [List.map_cons, List.sum_cons]; ring
    · ring

theorem planned_build {fmt : ℚ → String} {cs : List (Call R K)} : ∀ {rs : List Request} {bs ops},
    planCalls fmt rs cs = .ok (bs, ops) → ∀ x ∈ cs.zip bs, ∃ rs1 rs2, build fmt rs1 x.1 = (.ok x.2, rs2) := by
  induction cs with
  | nil => intro rs bs ops _ x hx; simp at hx
  | cons c cs ih =>
    intro rs bs ops h x hx'
    rcases hx : build fmt rs c with ⟨r, rs'⟩
    rw [planCalls, hx] at h
    rcases r with e | b
    · simp at h
    · dsimp only at h
      rcases hp : planCalls fmt rs' cs with e | ⟨bs', ops'⟩
      · rw [hp] at h; simp at h
      · rw [hp] at h
        simp only [Except.ok.injEq, Prod.mk.injEq] at h
        obtain ⟨rfl, rfl⟩ := h
        rw [List.zip_cons_cons, List.mem_cons] at hx'
        rcases hx' with rfl | hx'
        · exact ⟨_, _, hx⟩
        · exact ih hp x hx'

theorem forall₂_sum {α β : Type} {f : α → ℝ} {g : β → ℝ} {l : List α} {l' : List β}
    (h : List.Forall₂ (fun a b => g b = f a) l l') : (l'.map g).sum = (l.map f).sum := by
  induction h with
  | nil => rfl
  | cons h _ ih => simp [h, ih]

/-- **C90** (budgets).  For every pipeline of supported calls with metrics, once the budgets have been computed all reports can be
generated.  The budgets in the report of a call are exactly those that the accountant computed for its requests: its epsilons add up to the
share of the call (`weight` of the total of all weights), and those of all reports to the total epsilon.  All deltas add up to the total
delta, unless nothing needs a delta and all are 0. -/
theorem C90_shown_budgets_add_up (fmt : ℚ → String) (sigma : ℝ → ℝ → ℝ → ℝ) (cutoff) (cs : List (Call R K))
    (hs : ∀ c ∈ cs, c.Supported)
    (hm : ∀ p pub key value, Call.aggregate p pub key value ∈ cs → p.metrics ≠ []) {e d : ℚ} {num ws s0}
    (h0 : Budget.init e d num ws = .ok s0) (hd : (∃ c ∈ cs, c.NeedsDelta) → 0 < d) (ha : AnnouncedCalls num ws cs) (hcs : cs ≠ []) :
    ∃ bs ops, planCalls fmt [] cs = .ok (bs, ops) ∧
      let s := (Budget.step (Budget.run s0 ops).1 .compute).1
      ∃ Es, explainCalls sigma cutoff (specOf s) cs bs = .ok Es ∧
        List.Forall₂ (fun x E =>
          (∃ eps delta : ℕ → ℚ, (∀ i ∈ x.2.specs, Budget.seesEps s i (eps i) ∧ Budget.seesDelta s i (delta i)) ∧
            (E.flatMap Explanation.budgets).Perm (x.2.specs.map fun i => ((eps i : ℝ), (delta i : ℝ)))) ∧
          ((E.flatMap Explanation.budgets).map Prod.fst).sum = ((e * x.1.weight / (cs.map Call.weight).sum : ℚ) : ℝ)) (cs.zip bs) Es ∧
        bs.length = cs.length ∧
        ((Es.flatten.flatMap Explanation.budgets).map Prod.fst).sum = e ∧
        (((Es.flatten.flatMap Explanation.budgets).map Prod.snd).sum = d ∨
          (¬∃ c ∈ cs, c.NeedsDelta) ∧ ∀ b ∈ Es.flatten.flatMap Explanation.budgets, b.2 = 0) := by
  obtain ⟨bs, ops, hp, -, hc⟩ := C62_supported_pipeline_runs fmt cs hs h0 hd ha
  refine ⟨bs, ops, hp, ?_⟩
  intro s
  have hshare := C63_budget_shares fmt cs hs hm h0 hd ha hp
  obtain ⟨hlen, hne, hpos, -⟩ := plan_registered hs hm hp
  obtain ⟨hplain, new, hreq, hspecs, hrq, hnd⟩ := planCalls_spec hs hp
  obtain ⟨ε, δ, hok, -, -⟩ := budgets_published hplain hreq h0 (fun r hr hne => hd (hnd r hr hne)) hc
  have hbo : ∀ x ∈ cs.zip bs, BuiltOk (specOf s) ε δ x.1.kind x.2 := by
    intro x hx
    have h := hrq x hx
    rw [List.nil_append] at h
    refine ⟨fun part hpart i hi => ?_, fun i hi => ?_, h.nodup⟩
    · obtain ⟨w, hw⟩ := h.parts part hpart i hi
      exact hok i _ hw
    · obtain ⟨w, hw⟩ := h.selection i hi
      exact hok i _ hw
  have hspec : ∀ x ∈ cs.zip bs, ∀ i ∈ x.2.specs, ∃ m, specOf s i = ⟨toMechType m, none, some (ε i), some (δ i)⟩ := by
    intro x hx i hi
    unfold Built.specs at hi
    rw [List.mem_append] at hi
    rcases hi with hi | hi
    · obtain ⟨part, hpart, hip⟩ := List.mem_flatMap.mp hi
      exact ⟨_, ((hbo x hx).parts part hpart i hip).eq⟩
    · exact ⟨_, ((hbo x hx).selection i (by simpa using hi)).eq⟩
  have hval : ∀ x ∈ cs.zip bs, ∀ i ∈ x.2.specs, ε i = ((shareEps e cs x i : ℚ) : ℝ) ∧ δ i = ((shareDelta d cs bs x i : ℚ) : ℝ) := by
    intro x hx i hi
    obtain ⟨m, hm⟩ := hspec x hx i hi
    obtain ⟨h1, h2⟩ := hshare x hx i hi
    rw [Budget.seesEps_iff] at h1
    rw [Budget.seesDelta_iff] at h2
    obtain ⟨a, a1, a2⟩ := h1
    obtain ⟨a', a3, a4⟩ := h2
    rw [a1, Option.some.injEq] at a3
    subst a3
    have hs' : s.mechs[i]? = some a := a1
    unfold specOf at hm
    rw [hs'] at hm
    simp only [a2, a4, Option.map_some, Mechanism.Spec.mk.injEq, Option.some.injEq] at hm
    exact ⟨hm.2.2.1.symm, hm.2.2.2.symm⟩
  have hlap : ∀ x ∈ cs.zip bs, ∀ part ∈ x.2.parts, ∀ i ∈ part.specs, part.mechanism x.1.kind = .laplace → δ i = 0 := by
    intro x hx part hpart i hi hl
    have his : i ∈ x.2.specs := by
      unfold Built.specs
      exact List.mem_append_left _ (List.mem_flatMap.mpr ⟨part, hpart, hi⟩)
    rw [(hval x hx i his).2, shareDelta]
    have := ((hpos x hx i his).2).mp (by rw [mechAt_part (hrq x hx) hpart hi, hl])
    simp [this]
  obtain ⟨Es, hEs, hF⟩ := calls_explained sigma cutoff hs hp hbo hlap
  have hF' := forall₂_with_mem hF
  have hW : 0 < (cs.map Call.weight).sum := by
    obtain ⟨c, hc⟩ := List.exists_mem_of_ne_nil _ hcs
    exact Budget.sum_pos_of_mem cs Call.weight (fun c hc => (hs c hc).weight.le) hc (hs c hc).weight
  have pEps : ∀ x ∈ cs.zip bs, ∀ E : List Explanation, (E.flatMap Explanation.budgets).Perm (x.2.specs.map fun i => (ε i, δ i)) →
      ((E.flatMap Explanation.budgets).map Prod.fst).sum = ((e * x.1.weight / (cs.map Call.weight).sum : ℚ) : ℝ) := by
    intro x hx E hE
    rw [(hE.map Prod.fst).sum_eq, List.map_map]
    have : x.2.specs.map (Prod.fst ∘ fun i => (ε i, δ i)) = x.2.specs.map fun i => ((shareEps e cs x i : ℚ) : ℝ) :=
      List.map_congr_left fun i hi => (hval x hx i hi).1
    rw [this, sum_cast, ← budgetPart_sum (hne x.2 (List.of_mem_zip hx).2) fun i hi => (hpos x hx i hi).1,
      ← List.sum_map_mul_left, div_eq_mul_inv, ← List.sum_map_mul_right]
    rfl
  have heps : List.Forall₂ (fun x E => ((E.flatMap Explanation.budgets).map Prod.fst).sum
      = ((e * x.1.weight / (cs.map Call.weight).sum : ℚ) : ℝ)) (cs.zip bs) Es :=
    hF'.imp fun x E hxE => pEps x hxE.1 E hxE.2
  have hdel : List.Forall₂ (fun x E => ((E.flatMap Explanation.budgets).map Prod.snd).sum
      = (((x.2.specs.map (shareDelta d cs bs x)).sum : ℚ) : ℝ)) (cs.zip bs) Es := by
    refine hF'.imp fun x E hxE => ?_
    rw [(hxE.2.map Prod.snd).sum_eq, List.map_map]
    have : x.2.specs.map (Prod.snd ∘ fun i => (ε i, δ i)) = x.2.specs.map fun i => ((shareDelta d cs bs x i : ℚ) : ℝ) :=
      List.map_congr_left fun i hi => (hval x hxE.1 i hi).2
    rw [this, sum_cast]
  have hflat : ∀ g : ℝ × ℝ → ℝ, ((Es.flatten.flatMap Explanation.budgets).map g).sum
      = (Es.map fun E => ((E.flatMap Explanation.budgets).map g).sum).sum := by
    intro g
    rw [← List.flatMap_id, List.flatMap_assoc, flatMap_sum]
    rfl
  refine ⟨Es, hEs, ?_, hlen, ?_, ?_⟩
  · refine hF'.imp fun x E hxE => ⟨⟨shareEps e cs x, shareDelta d cs bs x, fun i hi => hshare x hxE.1 i hi, ?_⟩,
      pEps x hxE.1 E hxE.2⟩
    refine hxE.2.trans (.of_eq (List.map_congr_left fun i hi => ?_))
    rw [(hval x hxE.1 i hi).1, (hval x hxE.1 i hi).2]
  · rw [hflat, forall₂_sum heps, sum_cast]
    congr 1
    have : cs = (cs.zip bs).map Prod.fst := by rw [List.map_fst_zip (by omega)]
    have h2 : ((cs.zip bs).map fun x => e * x.1.weight / (cs.map Call.weight).sum)
        = cs.map fun c => e * c.weight / (cs.map Call.weight).sum := by
      conv_rhs => rw [this, List.map_map]
      rw [← this]; rfl
    rw [h2]
    simp only [div_eq_mul_inv, mul_assoc]
    rw [List.sum_map_mul_left, List.sum_map_mul_right, mul_inv_cancel₀ hW.ne', mul_one]
  · have hsum : ((Es.flatten.flatMap Explanation.budgets).map Prod.snd).sum
        = (((((cs.zip bs).flatMap fun x => x.2.specs.map fun i => (x, i)).map fun y => shareDelta d cs bs y.1 y.2).sum : ℚ) : ℝ) := by
      rw [hflat, forall₂_sum hdel, sum_cast]
      congr 1
      generalize cs.zip bs = l
      clear * -
      generalize shareDelta d cs bs = f
      induction l with
      | nil => rfl
      | cons x l ih => rw [List.map_cons, List.sum_cons, ih, List.flatMap_cons, List.map_append, List.sum_append, List.map_map]; rfl
    by_cases hex : ∃ x ∈ cs.zip bs, ∃ i ∈ x.2.specs, needsDelta x i = true
    · left
      rw [hsum]
      congr 1
      unfold shareDelta
      dsimp only
      rw [sum_shares]
      have hT : 0 < (((((cs.zip bs).flatMap fun x => x.2.specs.map fun i => (x, i)).filter fun y => needsDelta y.1 y.2).map
          fun y => budgetPart y.1 y.2).sum) := by
        obtain ⟨x, hx, i, hi, hn⟩ := hex
        have hall : ∀ y ∈ (cs.zip bs).flatMap fun x => x.2.specs.map fun i => (x, i), 0 < budgetPart y.1 y.2 := by
          intro y hy
          obtain ⟨x', hx', hy'⟩ := List.mem_flatMap.mp hy
          obtain ⟨i', hi', rfl⟩ := List.mem_map.mp hy'
          unfold budgetPart
          have : 0 < (x'.2.specs.map (innerWeight x')).sum :=
            Budget.sum_pos_of_mem _ _ (fun a ha => (hpos x' hx' a ha).1.le) hi' (hpos x' hx' i' hi').1
          exact mul_pos (hs _ (List.of_mem_zip hx').1).weight (div_pos (hpos x' hx' i' hi').1 this)
        have hmem : (x, i) ∈ (cs.zip bs).flatMap fun x => x.2.specs.map fun i => (x, i) :=
          List.mem_flatMap.mpr ⟨x, hx, List.mem_map.mpr ⟨i, hi, rfl⟩⟩
        exact Budget.sum_pos_of_mem _ _ (fun a ha => (hall a (List.mem_filter.mp ha).1).le)
          (List.mem_filter.mpr ⟨hmem, hn⟩) (hall _ hmem)
      rw [mul_div_assoc, div_self hT.ne', mul_one]
    · right
      have hno : ∀ x ∈ cs.zip bs, ∀ i ∈ x.2.specs, needsDelta x i = false := by
        intro x hx i hi
        by_contra h
        exact hex ⟨x, hx, i, hi, by simpa using h⟩
      refine ⟨?_, ?_⟩
      · rintro ⟨c, hcm, hcn⟩
        obtain ⟨b, hb⟩ : ∃ b, (c, b) ∈ cs.zip bs := by
          obtain ⟨t, ht, rfl⟩ := List.getElem_of_mem hcm
          exact ⟨bs[t], List.mem_iff_getElem.mpr ⟨t, by simp [hlen, ht], by simp⟩⟩
        have hbne := hne b (List.of_mem_zip hb).2
        obtain ⟨i0, hi0⟩ := List.exists_mem_of_ne_nil _ hbne
        obtain ⟨rs, rs', hbuild⟩ := planned_build hp (c, b) hb
        cases c with
        | aggregate p pub key value =>
          rcases hcn with hg | rfl
          · have := hno _ hb i0 hi0
            simp [needsDelta, Call.kind, hg] at this
          · obtain ⟨⟨rs1, hcc⟩, hsel⟩ := build_aggregate hbuild
            have hsup : SupportedAggregate p none := hs _ hcm
            obtain ⟨-, hth⟩ := parts_ok_any hsup.any hcc
            cases hpt : p.postThresholding with
            | true =>
              obtain ⟨j, hj⟩ := List.exists_mem_of_ne_nil _ (hth hpt)
              rw [mem_thSpecs] at hj
              have := hno _ hb j (by
                unfold Built.specs
                exact List.mem_append_left _ (List.mem_flatMap.mpr ⟨_, hj, by simp [Part.specs]⟩))
              simp only [needsDelta, Bool.or_eq_false_iff, List.any_eq_false] at this
              exact absurd (this.2 _ hj) (by simp)
            | false =>
              rw [selectsPrivately, hpt, (hsup.hidden rfl).2 hpt] at hsel
              obtain ⟨j, hj⟩ := Option.isSome_iff_exists.mp (hsel.trans rfl)
              have hj : b.selection = some j := hj
              have := hno _ hb j (by simp [Built.specs, hj])
              simp [needsDelta, hj] at this
        | select p key =>
          simp only [build, Prod.mk.injEq, Except.ok.injEq] at hbuild
          obtain ⟨rfl, -⟩ := hbuild
          have := hno _ hb (requestBudget rs .generic 1).1 (by simp [Built.specs])
          simp [needsDelta] at this
      · intro y hy
        obtain ⟨z, hz, hyz⟩ := List.mem_flatMap.mp hy
        obtain ⟨E, hE, hzE⟩ := List.mem_flatten.mp hz
        obtain ⟨x, hx, hxE⟩ := forall₂_mem_right hF E hE
        obtain ⟨i, hi, rfl⟩ := List.mem_map.mp (hxE.mem_iff.mp (List.mem_flatMap.mpr ⟨z, hzE, hyz⟩))
        show δ i = 0
        rw [(hval x hx i hi).2, shareDelta]
        simp [hno x hx i hi]

/-! ### Gaps -/

theorem additive_uncomputed {sigma : ℝ → ℝ → ℝ → ℝ} {sens : Except Engine.Err Sens} {spec : Engine.Mechanism.Spec}
    (h : spec.eps = none ∧ spec.std = none) (x : Described) : describeMechanism sigma sens spec ≠ .ok x := by
  intro hx
  unfold describeMechanism at hx
  split at hx
  · rename_i hp
    unfold pyArgs at hp
    rw [h.1, h.2] at hp
    cases hk : noiseKind spec.type with
    | error e => rw [hk] at hp; simp at hp
    | ok k => rw [hk] at hp; cases k <;> simp [computed] at hp
  · simp at hx
  · simp at hx

theorem shown_uncomputed {spec : Engine.Mechanism.Spec} (h : spec.eps = none) (x : ℝ × ℝ) : shownBudget spec ≠ .ok x := by
  simp [shownBudget, h, computed]

theorem part_uncomputed {sigma : ℝ → ℝ → ℝ → ℝ} {cutoff} {s : Specs} (h : ∀ i, (s i).eps = none ∧ (s i).std = none) {p : Params}
    {part : Part} (hv : ∀ i, part ≠ .vectorSum i) (x : Explanation) : explainPart sigma cutoff s p part ≠ .ok x := by
  intro hx
  cases part with
  | vectorSum i => exact hv i rfl
  | mean c i ns =>
    simp only [explainPart] at hx
    split at hx
    · rename_i h1 _; exact additive_uncomputed (h c) _ h1
    · simp at hx
    · simp at hx
  | thresholding i =>
    simp only [explainPart] at hx
    split at hx
    · rename_i h1
      unfold thresholdGate at h1
      split at h1
      · simp at h1
      · rename_i sn _
        have : ∀ y, createThresholding (s i) sn ≠ .ok y := by
          intro y hy
          unfold createThresholding at hy
          rw [(h i).1] at hy
          revert hy
          cases (s i).type <;> simp [computed, bind, Except.bind, Mechanism.toStrategy]
        split at h1
        · simp at h1
        · simp at h1
        · rename_i hc; exact this _ hc
    · simp at hx
    · simp at hx
  | variance i ns =>
    simp only [explainPart, Except.map] at hx
    split at hx
    · simp at hx
    · rename_i h1; exact shown_uncomputed (h i).1 _ h1
  | quantile i ps =>
    simp only [explainPart, Except.map] at hx
    split at hx
    · simp at hx
    · rename_i h1; exact shown_uncomputed (h i).1 _ h1
  | count i =>
    simp only [explainPart, Except.map] at hx
    split at hx
    · simp at hx
    · rename_i h1; exact additive_uncomputed (h i) _ h1
  | privacyIdCount i =>
    simp only [explainPart, Except.map] at hx
    split at hx
    · simp at hx
    · rename_i h1; exact additive_uncomputed (h i) _ h1
  | sum i =>
    simp only [explainPart, Except.map] at hx
    split at hx
    · simp at hx
    · rename_i h1; exact additive_uncomputed (h i) _ h1

/-- **C90** (before `compute_budgets`).  As long as the accountant has not computed the budgets, the report of a call cannot be generated,
whatever calls have been planned: no text without or with wrong budgets is given out. -/
theorem C90_no_report_before_the_budgets (fmt : ℚ → String) (sigma : ℝ → ℝ → ℝ → ℝ) (cutoff) (cs : List (Call R K))
    (hs : ∀ c ∈ cs, c.Supported)
    (hm : ∀ p pub key value, Call.aggregate p pub key value ∈ cs → p.metrics ≠ []) {e d : ℚ} {num ws s0}
    (h0 : Budget.init e d num ws = .ok s0) (hd : (∃ c ∈ cs, c.NeedsDelta) → 0 < d) (ha : AnnouncedCalls num ws cs)
    {bs ops} (hp : planCalls fmt [] cs = .ok (bs, ops)) :
    ∀ x ∈ cs.zip bs, ∀ E, explainCall sigma cutoff (specOf (Budget.run s0 ops).1) x.2 x.1 ≠ .ok E := by
  obtain ⟨hl, hne, -, n, -, hrun⟩ := plan_registered hs hm hp
  obtain ⟨he, hd0, -, hs0, -, hnp⟩ := Budget.init_facts h0
  have hcpos : ∀ c ∈ cs, 0 < c.weight := fun c hc => (hs c hc).weight
  have hw : ∀ l, s0.expectedWeights = some l → l ≠ [] → l.sum ≠ 0 := by
    rw [hs0]
    intro l hl hl0
    have hl : ws = some l := hl
    rw [ha.2 l hl] at hl0 ⊢
    have hcs : cs ≠ [] := by rintro rfl; exact hl0 rfl
    obtain ⟨c, hc⟩ := List.exists_mem_of_ne_nil _ hcs
    exact (Budget.sum_pos_of_mem cs Call.weight (fun c hc => (hcpos c hc).le) hc (hcpos c hc)).ne'
  have hr := hrun s0 (by rw [hs0]) (by rw [hs0]) (by
    rw [hs0]
    by_cases h : ∃ c ∈ cs, c.NeedsDelta
    · exact .inl (hd h).ne'
    · exact .inr fun c hc hn => h ⟨c, hc, hn⟩) (by rw [hs0]; exact hnp) hw
  have hnone : ∀ i, (specOf (Budget.run s0 ops).1 i).eps = none ∧ (specOf (Budget.run s0 ops).1 i).std = none := by
    intro i
    rw [hr, hs0]
    unfold specOf
    dsimp only
    split
    · exact ⟨rfl, rfl⟩
    · rename_i m hmi
      have hmem := List.mem_of_getElem? hmi
      simp only [List.nil_append, registered, List.mem_flatMap, List.mem_map] at hmem
      obtain ⟨x, -, j, -, rfl⟩ := hmem
      exact ⟨rfl, rfl⟩
  generalize specOf (Budget.run s0 ops).1 = s at hnone
  intro x hx E hE
  have hsel : ∀ i st pre y, explainSelection s i st pre ≠ .ok y := by
    intro i st pre y hy
    obtain ⟨e, d, h1, -⟩ := explainSelection_ok hy
    rw [(hnone i).1] at h1
    cases h1
  have hsup := hs _ (List.of_mem_zip hx).1
  have hspec := hne _ (List.of_mem_zip hx).2
  obtain ⟨rs1, rs2, hb⟩ := planned_build hp x hx
  obtain ⟨c, b⟩ := x
  dsimp only at hE hsup hspec hb
  cases c with
  | aggregate p pub key value =>
    simp only [explainCall] at hE
    cases hbs : b.selection with
    | some i =>
      rw [hbs] at hE
      dsimp only at hE
      split at hE
      · rename_i h1 _; exact hsel _ _ _ _ h1
      · simp at hE
      · simp at hE
    | none =>
      rw [hbs] at hE
      dsimp only at hE
      have hf := explainParts_mem hE
      obtain ⟨⟨rs1, hcc⟩, -⟩ := build_aggregate hb
      have hsupp : SupportedAggregate p pub := hsup
      have hok := (parts_ok_any hsupp.any hcc).1
      unfold Built.specs at hspec
      rw [hbs] at hspec
      cases hparts : b.parts with
      | nil => rw [hparts] at hspec; simp at hspec
      | cons part parts =>
        rw [hparts] at hf hok
        cases hf with
        | cons h1 _ =>
          refine part_uncomputed hnone ?_ _ h1
          rintro i rfl
          rcases hok _ List.mem_cons_self with h | ⟨j, h⟩ | ⟨j, ps, h⟩
          · exact h
          · cases h
          · cases h
  | select p key =>
    simp only [explainCall] at hE
    cases hbs : b.selection with
    | none => rw [hbs] at hE; simp at hE
    | some i =>
      rw [hbs] at hE
      dsimp only [Except.map] at hE
      split at hE
      · simp at hE
      · rename_i h1; exact hsel _ _ _ _ h1

/-- **C90** (gap).  The report of VECTOR_SUM for public partitions shows nothing of its noise or its budget, in any state of the
accountant, although the call has requested one: the stage is the text `None`. -/
theorem C90_vector_sum_is_not_explained (fmt : ℚ → String) (sigma : ℝ → ℝ → ℝ → ℝ) (cutoff) (s : Specs) (rs rs' : List Request)
    (p : Params) (hp : p.metrics = [.vectorSum]) (ps : List K) (key : R → K) (value : R → ℚ) {b : Built}
    (hb : build fmt rs (.aggregate p (some ps) key value) = (.ok b, rs')) :
    b.specs = [rs.length] ∧
      ∃ E, explainCall sigma cutoff s b (.aggregate p (some ps) key value) = .ok E ∧ E = [.none] ∧
        E.flatMap Explanation.budgets = [] := by
  obtain ⟨⟨rs1, hcc⟩, hsel⟩ := build_aggregate hb
  have hsel : b.selection = none := by simpa [selectsPrivately] using hsel
  have hparts : b.parts = [.vectorSum rs.length] := by
    have h1 : scalarParts p rs = ([], rs) := by simp [scalarParts, hp]
    have h2 : privacyIdPart p rs = ([], rs) := by simp [privacyIdPart, hp]
    have h3 : (vectorPart p rs).1 = [.vectorSum rs.length] := by simp [vectorPart, hp, requestBudget]
    have h4 : ∀ r, (quantilePart p r) = ([], r) := by intro r; simp [quantilePart, hp, Metric.percentile?]
    simp only [createCompound, h1, h2, h3, h4, List.nil_append, List.append_nil] at hcc
    split at hcc
    · simpa using (congrArg Prod.fst hcc).symm
    · simp at hcc
  refine ⟨by simp [Built.specs, hsel, hparts, Part.specs], [.none], ?_, rfl, rfl⟩
  simp only [explainCall, hsel, hparts, explainParts, explainPart]

end PDP.EndToEnd
