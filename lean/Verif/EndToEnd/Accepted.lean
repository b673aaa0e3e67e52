import Verif.EndToEnd.Releases
import Verif.Validation.Props

/-!
# Which accepted calls can be evaluated (C83)

`AggregateParams.__post_init__` and `DPEngine.aggregate` check parameters before the pipeline is built.  Noise mechanisms are
created later, when results are computed, with checks of their own (`dp_computations.py:586-618`).  Here both are put together.
-/

set_option linter.unusedSectionVars false

namespace PDP.Validation

open PDP.Engine (Metric NoiseKind Err Params)

/-- The number, if finite. -/
def Num.toRat? : Num → Option ℚ
  | .fin q => some q
  | _ => none

/-- The parameters which the engine reads from the arguments `r`; `o` gives the arguments which are not checked. -/
def Raw.arguments (r : Raw) (o : Params) : Params :=
  { o with
    metrics := r.metrics.getD []
    noiseKind := r.noiseKind
    maxPartitions := r.maxPartitions.bind IntArg.toNat?
    maxPerPartition := r.maxPerPartition.bind IntArg.toNat?
    maxContributions := r.maxContributions.bind IntArg.toNat?
    minValue := r.minValue.bind Num.toRat?
    maxValue := r.maxValue.bind Num.toRat?
    minSum := r.minSum.bind Num.toRat?
    maxSum := r.maxSum.bind Num.toRat?
    boundsEnforced := r.boundsEnforced
    postThresholding := r.postThresholding
    preThreshold := r.preThreshold.bind IntArg.toNat? }

end PDP.Validation

namespace PDP.EndToEnd

open PDP PDP.Engine
open PDP.Engine.Mechanism (Additive createThresholding computed)
open PDP.Validation (Raw postInit checkAggregate)

variable {R P K : Type} [DecidableEq P] [DecidableEq K]

/-! ### Specification -/

/-- The metrics COUNT, PRIVACY_ID_COUNT, SUM, MEAN and VARIANCE. -/
def OnlyScalars (p : Params) : Prop :=
  ∀ m ∈ p.metrics, m = .count ∨ m = .privacyIdCount ∨ m = .sum ∨ m = .mean ∨ m = .variance

/-- All metrics but VECTOR_SUM. -/
def NoVectors (p : Params) : Prop := Metric.vectorSum ∉ p.metrics

theorem OnlyScalars.noVectors {p : Params} (h : OnlyScalars p) : NoVectors p := by
  intro hv
  have := h _ hv
  simp at this

/-- What accepted parameters need besides, so that results can be computed.
* SUM, if it is not computed together with MEAN or VARIANCE: bounds other than [0, 0], and no `max_contributions` together with
  bounds of the sum per partition.
* MEAN, if it is not computed together with VARIANCE: bounds that are not equal.
* `max_contributions`: neither private partition selection nor post-aggregation thresholding. -/
structure Evaluable (p : Params) (pub : Option (List K)) : Prop where
  sum : Metric.sum ∈ p.metrics → Metric.mean ∉ p.metrics → Metric.variance ∉ p.metrics →
    ¬(p.minValue = some 0 ∧ p.maxValue = some 0) ∧ ¬(p.minSum = some 0 ∧ p.maxSum = some 0) ∧
    (p.minSum ≠ none → p.maxContributions = none)
  mean : Metric.mean ∈ p.metrics → Metric.variance ∉ p.metrics → p.minValue ≠ p.maxValue
  contributions : p.maxContributions ≠ none → p.postThresholding = false ∧ (pub = none → p.publicFiltered = true)

/-! ### Accepted parameters -/

/-- What is known of accepted parameters without VECTOR_SUM. -/
structure Accepted (p : Params) : Prop where
  bounds : p.BoundsValid
  values : (p.minValue = none ∧ p.maxValue = none) ∨ ∃ lo hi, p.minValue = some lo ∧ p.maxValue = some hi ∧ lo ≤ hi
  sums : (p.minSum = none ∧ p.maxSum = none) ∨ ∃ lo hi, p.minSum = some lo ∧ p.maxSum = some hi ∧ lo ≤ hi
  oneKind : p.minValue = none ∨ p.minSum = none
  sumBounds : Metric.sum ∈ p.metrics → p.minSum ≠ none ∨ p.minValue ≠ none
  moments : Metric.mean ∈ p.metrics ∨ Metric.variance ∈ p.metrics → p.minValue ≠ none
  variance : Metric.variance ∈ p.metrics → p.maxContributions = none
  thresholding : p.postThresholding = true → Metric.privacyIdCount ∈ p.metrics
  percentiles : ∀ x, Metric.percentile x ∈ p.metrics → p.minValue ≠ none ∧ p.maxContributions = none

theorem range_arguments {a b : Option Validation.Num} (h : Validation.RangeOk a b) :
    ((a.bind Validation.Num.toRat? = none ∧ b.bind Validation.Num.toRat? = none) ∨
      ∃ lo hi, a.bind Validation.Num.toRat? = some lo ∧ b.bind Validation.Num.toRat? = some hi ∧ lo ≤ hi) ∧
    (a.bind Validation.Num.toRat? = none ↔ a = none) := by
  rcases h with ⟨rfl, rfl⟩ | ⟨x, y, rfl, rfl, h⟩
  · exact ⟨.inl ⟨rfl, rfl⟩, by simp⟩
  · exact ⟨.inr ⟨x, y, rfl, rfl, h⟩, by simp [Validation.Num.toRat?]⟩

theorem accepted_of {r : Raw} (h1 : postInit r = .ok ()) (h2 : checkAggregate r = .ok ()) (o : Params)
    (hm : NoVectors (r.arguments o)) : Accepted (r.arguments o) := by
  have hd := (Validation.C26_accepted_iff_documented r).mp h1
  obtain ⟨c1, c2, -⟩ := (Validation.C26_aggregate_accepts_iff r h1).mp h2
  have hb := Validation.C26_accepted_bounds_are_valid r h1
  obtain ⟨v1, v2⟩ := range_arguments hd.values
  obtain ⟨s1, s2⟩ := range_arguments hd.sums
  have hvec : ∀ ms, r.metrics = some ms → Metric.vectorSum ∉ ms := by
    intro ms hms hv
    exact hm (by simpa [Raw.arguments, hms] using hv)
  have hms : ∀ m, m ∈ (r.arguments o).metrics → ∃ ms, r.metrics = some ms ∧ m ∈ ms := by
    intro m h
    cases hr : r.metrics with
    | none => simp [Raw.arguments, hr] at h
    | some ms => exact ⟨ms, rfl, by simpa [Raw.arguments, hr] using h⟩
  refine ⟨hb, v1, s1, ?_, ?_, ?_, ?_, ?_, ?_⟩
  · rcases hd.oneKind with h | h
    · exact .inl (v2.mpr h)
    · exact .inr (s2.mpr h)
  · intro h
    obtain ⟨ms, e, h⟩ := hms _ h
    by_contra hc
    rw [not_or, not_not, not_not] at hc
    have := hd.noBounds ms e (hvec ms e) (s2.mp hc.1) (v2.mp hc.2) _ h
    simp at this
  · intro h hn
    have hn := v2.mp hn
    have : ∃ m, (m = Metric.mean ∨ m = Metric.variance) ∧ m ∈ (r.arguments o).metrics := by
      rcases h with h | h
      · exact ⟨_, .inl rfl, h⟩
      · exact ⟨_, .inr rfl, h⟩
    obtain ⟨m, hmv, h⟩ := this
    obtain ⟨ms, e, h⟩ := hms _ h
    by_cases hsum : r.minSum = none
    · have := hd.noBounds ms e (hvec ms e) hsum hn _ h
      rcases hmv with rfl | rfl <;> simp at this
    · have := hd.sumMetrics ms e (hvec ms e) hsum _ h
      rcases hmv with rfl | rfl <;> simp at this
  · intro h
    obtain ⟨ms, e, h⟩ := hms _ h
    by_contra hc
    have hc' : r.maxContributions ≠ none := by
      intro h
      exact hc (by simp [Raw.arguments, h])
    obtain ⟨ms', e', h'⟩ := c1 hc'
    rw [e] at e'; cases e'
    have := h' _ h
    simp at this
  · intro h
    obtain ⟨ms, e, h⟩ := c2 h
    simpa [Raw.arguments, e] using h
  · intro x h
    obtain ⟨ms, e, h⟩ := hms _ h
    constructor
    · intro hn
      by_cases hsum : r.minSum = none
      · have := hd.noBounds ms e (hvec ms e) hsum (v2.mp hn) _ h
        simp at this
      · have := hd.sumMetrics ms e (hvec ms e) hsum _ h
        simp at this
    · by_contra hc
      have hc' : r.maxContributions ≠ none := by
        intro h
        exact hc (by simp [Raw.arguments, h])
      obtain ⟨ms', e', h'⟩ := c1 hc'
      rw [e] at e'; cases e'
      have := h' _ h
      simp at this

/-! ### Evaluation of one partition -/

/-- All mechanisms of a combiner can be created. -/
def ViewRuns (s : Specs) (v : View) : Prop := ∀ n ∈ v.numbers, ∃ m, n.mech (s n.spec) = .ok m

/-- All mechanisms of a combiner can be created. -/
def PartRuns (sigma : ℝ → ℝ → ℝ → ℝ) (s : Specs) (p : Params) (part : Part) : Prop := ViewRuns s (view sigma p part)

theorem viewRuns_nil (s : Specs) (c : Combiner ℚ) : ViewRuns s ⟨c, []⟩ := by
  intro n hn
  cases hn

theorem viewRuns_cons (s : Specs) (c : Combiner ℚ) (n : Number c.Acc) (l : List (Number c.Acc)) :
    ViewRuns s ⟨c, n :: l⟩ ↔ (∃ m, n.mech (s n.spec) = .ok m) ∧ ViewRuns s ⟨c, l⟩ := List.forall_mem_cons

theorem viewRuns_append (s : Specs) (c : Combiner ℚ) (l l' : List (Number c.Acc)) :
    ViewRuns s ⟨c, l ++ l'⟩ ↔ ViewRuns s ⟨c, l⟩ ∧ ViewRuns s ⟨c, l'⟩ := List.forall_mem_append

theorem mapM_stops {α β ε : Type} {f : α → Except ε β} {l : List α} {a : α} (ha : a ∈ l) (h : ∀ b, f a ≠ .ok b) :
    ∀ x, l.mapM f ≠ .ok x := by
  induction l with
  | nil => simp at ha
  | cons c l ih =>
    intro x hx
    rw [List.mapM_cons] at hx
    cases hc : f c with
    | error e => rw [hc] at hx; cases hx
    | ok y =>
      rw [hc] at hx
      rcases List.mem_cons.mp ha with rfl | ha
      · exact h y hc
      · cases hl : l.mapM f with
        | error e => rw [hl] at hx; cases hx
        | ok z => exact ih ha z hl

theorem evalView_runs {s : Specs} {k : K} {v : View} {a : v.comb.Acc} (h : ∀ n ∈ v.numbers, ∃ m, n.mech (s n.spec) = .ok m) :
    ∃ l, evalView s k v a = .ok l := by
  have : ∀ n, ∃ m, n ∈ v.numbers → n.mech (s n.spec) = .ok m := by
    intro n
    by_cases hn : n ∈ v.numbers
    · obtain ⟨m, hm⟩ := h n hn
      exact ⟨m, fun _ => hm⟩
    · exact ⟨.laplace 0 0, fun h => absurd h hn⟩
  choose f hf using this
  refine ⟨_, mapM_ok' _ (fun n => ⟨k, n.spec, n.comp, n.read a, f n⟩) _ ?_⟩
  intro n hn
  rw [hf n hn]
  rfl

theorem evalView_stops {s : Specs} {k : K} {v : View} {a : v.comb.Acc} (h : ¬ ∀ n ∈ v.numbers, ∃ m, n.mech (s n.spec) = .ok m) :
    ∀ l, evalView s k v a ≠ .ok l := by
  push Not at h
  obtain ⟨n, hn, h⟩ := h
  refine mapM_stops hn ?_
  intro b hb
  cases hm : n.mech (s n.spec) with
  | error e => rw [hm] at hb; cases hb
  | ok m => exact h m hm

theorem evalParts_runs {sigma : ℝ → ℝ → ℝ → ℝ} {s : Specs} {p : Params} {k : K} {parts : List Part}
    (h : ∀ part ∈ parts, PartRuns sigma s p part) (a : Combiner.AccTuple (combinersOf sigma p parts)) :
    ∃ l, evalParts sigma s p k parts a = .ok l := by
  induction parts with
  | nil => exact ⟨[], rfl⟩
  | cons part parts ih =>
    obtain ⟨x, hx⟩ := evalView_runs (k := k) (a := a.1) (h part (by simp))
    obtain ⟨y, hy⟩ := ih (fun q hq => h q (by simp [hq])) a.2
    refine ⟨x ++ y, ?_⟩
    simp only [evalParts]
    rw [hx, hy]
    rfl

theorem evalParts_stops {sigma : ℝ → ℝ → ℝ → ℝ} {s : Specs} {p : Params} {k : K} {parts : List Part} {part : Part}
    (hp : part ∈ parts) (h : ¬ PartRuns sigma s p part) (a : Combiner.AccTuple (combinersOf sigma p parts)) :
    ∀ l, evalParts sigma s p k parts a ≠ .ok l := by
  induction parts with
  | nil => simp at hp
  | cons q parts ih =>
    intro l hl
    simp only [evalParts] at hl
    cases hx : evalView s k (view sigma p q) a.1 with
    | error e => rw [hx] at hl; cases hl
    | ok x =>
      rw [hx] at hl
      rcases List.mem_cons.mp hp with rfl | hp
      · exact evalView_stops h _ hx
      · cases hy : evalParts sigma s p k parts a.2 with
        | error e => rw [hy] at hl; cases hl
        | ok y => exact ih hp a.2 y hy

theorem additive_runs {sigma : ℝ → ℝ → ℝ → ℝ} {kind : NoiseKind} {ε δ : ℕ → ℝ} {s : Specs} {i : ℕ}
    (hs : SpecOk s ε δ i kind.mechanism) {sens : Except Engine.Err Sens} {l : ℝ × ℝ}
    (h : ∃ z, sens = .ok z ∧ z.l1 = some l.1 ∧ z.l2 = some l.2) : ∃ m, additive sigma sens (s i) = .ok m :=
  ⟨_, additive_noise sigma hs (c := 0) (x := 0) h⟩

theorem mkSens_zero_linf (l0 : Option ℝ) {x : ℝ} (h : ¬ 0 < x) (a b : Option ℝ) : ∀ z, mkSens l0 (some x) a b ≠ .ok z := by
  intro z hz
  simp [mkSens, positiveOrNone, h] at hz

theorem mkSens_zero_l1 {x : ℝ} (h : ¬ 0 < x) (b : Option ℝ) : ∀ z, mkSens none none (some x) b ≠ .ok z := by
  intro z hz
  simp [mkSens, positiveOrNone, h] at hz

theorem mkSens_no_l0 (x : ℝ) : ∀ z, mkSens none (some x) none none ≠ .ok z := by
  intro z hz
  by_cases h : 0 < x <;> simp [mkSens, positiveOrNone, h] at hz

theorem additive_stops {sigma : ℝ → ℝ → ℝ → ℝ} {sens : Except Engine.Err Sens} {spec : Engine.Mechanism.Spec}
    (h : ∀ z, sens ≠ .ok z) : ¬ ∃ m, additive sigma sens spec = .ok m := by
  rintro ⟨m, hm⟩
  cases hs : sens with
  | ok z => exact h z hs
  | error e => rw [hs] at hm; simp [additive] at hm

/-- SUM has sensitivities if and only if its bounds are usable. -/
theorem sensSum_runs {p : Params} (ha : Accepted p) (hsum : Metric.sum ∈ p.metrics) :
    (¬(p.minValue = some 0 ∧ p.maxValue = some 0) ∧ ¬(p.minSum = some 0 ∧ p.maxSum = some 0) ∧
      (p.minSum ≠ none → p.maxContributions = none)) →
    ∃ l : ℝ × ℝ, ∃ z, sensSum p = .ok z ∧ z.l1 = some l.1 ∧ z.l2 = some l.2 := by
  rintro ⟨h1, h2, h3⟩
  rcases ha.values with ⟨v1, v2⟩ | ⟨lo, hi, v1, v2, v3⟩
  · rcases ha.sums with ⟨s1, -⟩ | ⟨lo, hi, s1, s2, -⟩
    · rcases ha.sumBounds hsum with h | h
      · exact absurd s1 h
      · exact absurd v1 h
    · obtain ⟨z, q⟩ := sensSum_partition_val ha.bounds (h3 (by rw [s1]; simp)) s1 s2 v1 (fun h => h2 ⟨by rw [s1, h.1], by rw [s2, h.2]⟩)
      exact ⟨_, z, q⟩
  · obtain ⟨z, q⟩ := sensSum_val ha.bounds v1 v2 (fun h => h1 ⟨by rw [v1, h.1], by rw [v2, h.2]⟩)
    exact ⟨_, z, q⟩

theorem sensSum_stops {p : Params} (ha : Accepted p)
    (h : ¬(¬(p.minValue = some 0 ∧ p.maxValue = some 0) ∧ ¬(p.minSum = some 0 ∧ p.maxSum = some 0) ∧
      (p.minSum ≠ none → p.maxContributions = none))) : ∀ z, sensSum p ≠ .ok z := by
  intro z hz
  have hcase : (p.minValue = some 0 ∧ p.maxValue = some 0) ∨ (p.minSum = some 0 ∧ p.maxSum = some 0) ∨
      (p.minSum ≠ none ∧ p.maxContributions ≠ none) := by
    by_contra hc
    push Not at hc
    exact h ⟨fun q => hc.1 q.1 q.2, fun q => hc.2.1 q.1 q.2, hc.2.2⟩
  rcases hcase with ⟨v1, v2⟩ | hcase
  · have hb : p.valueBoundsSet = true := by simp [Params.valueBoundsSet, v1, v2]
    rcases ha.bounds with ⟨m, hm, q1, q2, q3⟩ | ⟨l0, linf, hl0, hl, q1, q2, q3⟩
    · have : m ≠ 0 := by omega
      simp [sensSum, hb, v1, v2, q1, this, num, natNum, bind, Except.bind, mkSens, positiveOrNone] at hz
    · simp [sensSum, hb, v1, v2, q1, q2, q3, num, natNum, bind, Except.bind, mkSens, positiveOrNone] at hz
  · have hs : p.minSum ≠ none := by
      rcases hcase with ⟨h, -⟩ | ⟨h, -⟩
      · rw [h]; simp
      · exact h
    have hv : p.minValue = none := ha.oneKind.resolve_right hs
    have hb : p.valueBoundsSet = false := by simp [Params.valueBoundsSet, hv]
    rcases hcase with ⟨s1, s2⟩ | ⟨-, hmc⟩
    · simp only [sensSum, hb, s1, s2, num, bind, Except.bind, Bool.false_eq_true, if_false] at hz
      exact mkSens_zero_linf _ (by simp) _ _ z hz
    · rcases ha.sums with ⟨s1, -⟩ | ⟨lo, hi, s1, s2, -⟩
      · exact hs s1
      · rcases ha.bounds with ⟨m, hm, q1, q2, q3⟩ | ⟨l0, linf, hl0, hl, q1, q2, q3⟩
        · simp only [sensSum, hb, s1, s2, q2, num, bind, Except.bind, Bool.false_eq_true, if_false, Option.map_none] at hz
          exact mkSens_no_l0 _ z hz
        · exact hmc q1

theorem sensNormalizedSum_stops {p : Params} (ha : Accepted p) (hmean : Metric.mean ∈ p.metrics) (h : p.minValue = p.maxValue) :
    ∀ z, sensNormalizedSum p ≠ .ok z := by
  intro z hz
  rcases ha.values with ⟨v1, v2⟩ | ⟨lo, hi, v1, v2, v3⟩
  · exact ha.moments (.inl hmean) v1
  · have : lo = hi := by rw [v1, v2] at h; exact Option.some.inj h
    subst this
    rcases ha.bounds with ⟨m, hm, q1, q2, q3⟩ | ⟨l0, linf, hl0, hl, q1, q2, q3⟩
    · have : m ≠ 0 := by omega
      simp [sensNormalizedSum, v1, v2, q1, this, num, natNum, bind, Except.bind, mkSens, positiveOrNone] at hz
    · simp [sensNormalizedSum, v1, v2, q1, q2, q3, num, natNum, bind, Except.bind, mkSens, positiveOrNone] at hz

/-! ### The combiners of a call -/

theorem parts_of_scalars {fmt : ℚ → String} {p : Params} {rs rs' : List Request} {parts : List Part} (hm : NoVectors p)
    (h : createCompound fmt p rs = (.ok parts, rs')) :
    parts = (scalarParts p rs).1 ++ (privacyIdPart p (scalarParts p rs).2).1 ++
      (quantilePart p (privacyIdPart p (scalarParts p rs).2).2).1 := by
  have hv : vectorPart p (privacyIdPart p (scalarParts p rs).2).2 = ([], (privacyIdPart p (scalarParts p rs).2).2) := by
    unfold vectorPart
    rw [if_neg hm]
  unfold createCompound at h
  simp only [hv, List.append_nil] at h
  split at h
  · simp only [Prod.mk.injEq, Except.ok.injEq] at h
    exact h.1.symm
  · simp at h

/-- Which combiners a call has. -/
theorem part_cases {fmt : ℚ → String} {p : Params} {rs rs' : List Request} {parts : List Part} (hm : NoVectors p)
    (h : createCompound fmt p rs = (.ok parts, rs')) :
    (∀ part ∈ parts, match part with
      | .count _ => True
      | .privacyIdCount _ => True
      | .thresholding _ => p.postThresholding = true
      | .sum _ => Metric.sum ∈ p.metrics ∧ Metric.mean ∉ p.metrics ∧ Metric.variance ∉ p.metrics
      | .mean _ _ _ => Metric.mean ∈ p.metrics ∧ Metric.variance ∉ p.metrics
      | .variance _ _ => Metric.variance ∈ p.metrics
      | .vectorSum _ => False
      | .quantile _ _ => ∃ x, Metric.percentile x ∈ p.metrics) ∧
    (Metric.sum ∈ p.metrics → Metric.mean ∉ p.metrics → Metric.variance ∉ p.metrics → ∃ i, Part.sum i ∈ parts) ∧
    (Metric.mean ∈ p.metrics → Metric.variance ∉ p.metrics → ∃ i j l, Part.mean i j l ∈ parts) ∧
    (Metric.privacyIdCount ∈ p.metrics → p.postThresholding = true → ∃ i, Part.thresholding i ∈ parts) := by
  rw [parts_of_scalars hm h]
  refine ⟨?_, ?_, ?_, ?_⟩
  · intro part hp
    rcases List.mem_append.mp hp with hp | hp
    rcases List.mem_append.mp hp with hp | hp
    · unfold scalarParts at hp
      by_cases h1 : Metric.variance ∈ p.metrics
      · rw [if_pos h1] at hp
        simp only [requestBudget, List.mem_singleton] at hp
        subst hp; exact h1
      · rw [if_neg h1] at hp
        by_cases h2 : Metric.mean ∈ p.metrics
        · rw [if_pos h2] at hp
          simp only [requestBudget, List.mem_singleton] at hp
          subst hp; exact ⟨h2, h1⟩
        · rw [if_neg h2] at hp
          by_cases h3 : Metric.count ∈ p.metrics <;> by_cases h4 : Metric.sum ∈ p.metrics <;>
            simp [h3, h4, requestBudget] at hp
          · rcases hp with rfl | rfl
            · trivial
            · exact ⟨h4, h2, h1⟩
          · subst hp; trivial
          · subst hp; exact ⟨h4, h2, h1⟩
    · unfold privacyIdPart at hp
      by_cases h1 : Metric.privacyIdCount ∈ p.metrics
      · rw [if_pos h1] at hp
        by_cases h2 : p.postThresholding = true
        · simp only [h2, if_true, requestBudget, List.mem_singleton] at hp
          subst hp; exact h2
        · simp only [h2, if_false, requestBudget, List.mem_singleton, Bool.false_eq_true] at hp
          subst hp; trivial
      · rw [if_neg h1] at hp; simp at hp
    · unfold quantilePart at hp
      by_cases h1 : p.metrics.filterMap Metric.percentile? = []
      · rw [h1] at hp
        simp at hp
      · simp only [ne_eq, h1, not_false_eq_true, if_true, requestBudget, List.mem_singleton] at hp
        subst hp
        obtain ⟨x, hx⟩ := List.exists_mem_of_ne_nil _ h1
        obtain ⟨m, hm, hmx⟩ := List.mem_filterMap.mp hx
        cases m <;> simp [Metric.percentile?] at hmx
        exact ⟨_, hm⟩
  · intro h4 h2 h1
    refine ⟨if Metric.count ∈ p.metrics then rs.length + 1 else rs.length, List.mem_append_left _ (List.mem_append_left _ ?_)⟩
    unfold scalarParts
    by_cases h3 : Metric.count ∈ p.metrics <;> simp [h1, h2, h3, h4, requestBudget]
  · intro h2 h1
    have : ∃ i j l, Part.mean i j l ∈ (scalarParts p rs).1 := by
      unfold scalarParts
      rw [if_neg h1, if_pos h2]
      exact ⟨_, _, _, List.mem_singleton.mpr rfl⟩
    obtain ⟨i, j, l, h⟩ := this
    exact ⟨i, j, l, List.mem_append_left _ (List.mem_append_left _ h)⟩
  · intro h1 h2
    have : ∃ i, Part.thresholding i ∈ (privacyIdPart p (scalarParts p rs).2).1 := by
      unfold privacyIdPart
      rw [if_pos h1, if_pos h2]
      exact ⟨_, List.mem_singleton.mpr rfl⟩
    obtain ⟨i, h⟩ := this
    exact ⟨i, List.mem_append_left _ (List.mem_append_right _ h)⟩

/-! ### A partition of an accepted call -/

section Partition

variable {fmt : ℚ → String} {p : Params} {rs rs1 : List Request} {b : Built} {s : Specs} {ε δ : ℕ → ℝ} {sigma : ℝ → ℝ → ℝ → ℝ}
  {pub : Option (List K)}

theorem parts_run (ha : Accepted p) (hm : NoVectors p) (hc : createCompound fmt p rs = (.ok b.parts, rs1))
    (hbo : BuiltOk s ε δ p.noiseKind b) (he : Evaluable p pub) : ∀ part ∈ b.parts, PartRuns sigma s p part := by
  intro part hpart
  have hcase := (part_cases hm hc).1 part hpart
  have hsp := hbo.parts part hpart
  unfold PartRuns
  cases part with
  | count i =>
    simp only [view, viewRuns_cons]
    exact ⟨additive_runs (hsp i (by simp [Part.specs])) (sensCount_val ha.bounds), viewRuns_nil _ _⟩
  | privacyIdCount i =>
    simp only [view, viewRuns_cons]
    exact ⟨additive_runs (hsp i (by simp [Part.specs])) (sensPid_val ha.bounds), viewRuns_nil _ _⟩
  | thresholding i => exact viewRuns_nil _ _
  | vectorSum i => exact hcase.elim
  | quantile i l => exact viewRuns_nil _ _
  | sum i =>
    obtain ⟨l, hl⟩ := sensSum_runs ha hcase.1 (he.sum hcase.1 hcase.2.1 hcase.2.2)
    simp only [view]
    split <;>
    · rw [viewRuns_cons]
      exact ⟨additive_runs (hsp i (by simp [Part.specs])) hl, viewRuns_nil _ _⟩
  | mean i j l =>
    obtain ⟨lo, hi, v1, v2, v3⟩ : ∃ lo hi, p.minValue = some lo ∧ p.maxValue = some hi ∧ lo ≤ hi := by
      rcases ha.values with ⟨h, -⟩ | h
      · exact absurd h (ha.moments (.inl hcase.1))
      · exact h
    have hlt : lo < hi := lt_of_le_of_ne v3 (fun h => he.mean hcase.1 hcase.2 (by rw [v1, v2, h]))
    simp only [view, viewRuns_cons]
    exact ⟨additive_runs (hsp i (by simp [Part.specs])) (sensCount_val ha.bounds),
      additive_runs (hsp j (by simp [Part.specs])) (sensNormalizedSum_val ha.bounds v1 v2 hlt), viewRuns_nil _ _⟩
  | variance i l =>
    have hthird : ∀ l0 linf : ℝ, ∃ m, thirdOf sigma p.noiseKind l0 linf (s i) = .ok m := fun l0 linf =>
      ⟨_, third_noise sigma (hsp i (by simp [Part.specs])) (c := 0) (x := 0) (l := (l0 * linf, Real.sqrt l0 * linf)) rfl rfl⟩
    simp only [view]
    rw [viewRuns_cons, viewRuns_append]
    refine ⟨hthird _ _, ?_, ?_⟩
    · split
      · exact viewRuns_nil _ _
      · rw [viewRuns_cons]; exact ⟨hthird _ _, viewRuns_nil _ _⟩
    · split
      · exact viewRuns_nil _ _
      · rw [viewRuns_cons]; exact ⟨hthird _ _, viewRuns_nil _ _⟩

theorem gate_runs (ha : Accepted p) (hm : NoVectors p) (hc : createCompound fmt p rs = (.ok b.parts, rs1))
    (hsel : b.selection.isSome = selectsPrivately p pub) (hbo : BuiltOk s ε δ p.noiseKind b) (he : Evaluable p pub)
    (acc : (Combiner.compound (combinersOf sigma p b.parts)).Acc) : ∃ g, gateOf sigma s p b acc = .ok g := by
  unfold gateOf
  cases hb : b.selection with
  | some i =>
    rw [hb] at hsel
    have hpriv : p.maxContributions = none := by
      by_contra hc
      obtain ⟨h1, h2⟩ := he.contributions hc
      cases pub with
      | some ps => simp [selectsPrivately] at hsel
      | none => simp [selectsPrivately, h2 rfl] at hsel
    obtain ⟨l0, m, -, -, q1, q2⟩ := maxRows_ok ha.bounds hpriv
    simp only [q1, q2, natArg, selectGate, (hbo.selection i hb).eq, computed]
    exact ⟨_, rfl⟩
  | none =>
    by_cases hp : p.postThresholding = true
    · obtain ⟨i, hi⟩ := (part_cases hm hc).2.2.2 (ha.thresholding hp) hp
      obtain ⟨j, hj, μ, hμ, -⟩ := thresholdPart_spec sigma p b.parts (List.ne_nil_of_mem (mem_thSpecs.mpr hi))
      have hmc : p.maxContributions = none := by
        by_contra hc
        have := (he.contributions hc).1
        rw [hp] at this; cases this
      have hsp := hbo.parts _ hj j (by simp [Part.specs])
      rcases ha.bounds with ⟨m, hm, q1, q2, q3⟩ | ⟨l0, linf, hl0, hl, q1, q2, q3⟩
      · rw [hmc] at q1; cases q1
      · have h0 : (0 : ℝ) < l0 := by exact_mod_cast hl0
        have hsens : sensPrivacyIdCount p = .ok ⟨some (l0 : ℝ), some 1, some (l1Sens l0 1), some (l2Sens l0 1)⟩ := by
          simp [sensPrivacyIdCount, q1, q2, mkSens, positiveOrNone, h0]
        simp only [hp, if_true, hμ, thresholdGate, hsens, hsp.eq, Part.mechanism]
        cases hk : p.noiseKind <;>
          exact ⟨_, by simp only [createThresholding, toMechType, NoiseKind.thresholding, Engine.Mechanism.toStrategy, computed, bind, Except.bind, pure, Except.pure]; rfl⟩
    · exact ⟨.always, by simp [hp]⟩

theorem candidate_runs (ha : Accepted p) (hm : NoVectors p) (hc : createCompound fmt p rs = (.ok b.parts, rs1))
    (hsel : b.selection.isSome = selectsPrivately p pub) (hbo : BuiltOk s ε δ p.noiseKind b) (he : Evaluable p pub)
    (e : K × (Combiner.compound (combinersOf sigma p b.parts)).Acc) : ∃ c, candidate sigma s p b e = .ok c := by
  obtain ⟨g, hg⟩ := gate_runs (sigma := sigma) ha hm hc hsel hbo he e.2
  obtain ⟨l, hl⟩ := evalParts_runs (k := e.1) (parts_run ha hm hc hbo he) e.2.2
  exact ⟨⟨e.1, g, l⟩, by unfold candidate; rw [hg, hl]⟩

theorem candidate_stops (ha : Accepted p) (hm : NoVectors p) (hc : createCompound fmt p rs = (.ok b.parts, rs1))
    (hsel : b.selection.isSome = selectsPrivately p pub) (he : ¬ Evaluable p pub)
    (e : K × (Combiner.compound (combinersOf sigma p b.parts)).Acc) : ∀ c, candidate sigma s p b e ≠ .ok c := by
  intro c hcand
  unfold candidate at hcand
  cases hg : gateOf sigma s p b e.2 with
  | error x => rw [hg] at hcand; simp at hcand
  | ok g =>
    cases hl : evalParts sigma s p e.1 b.parts e.2.2 with
    | error x => rw [hg, hl] at hcand; simp at hcand
    | ok l =>
      have hruns : ∀ part ∈ b.parts, PartRuns sigma s p part := fun part hpart => by
        by_contra h
        exact evalParts_stops hpart h _ l hl
      apply he
      refine ⟨?_, ?_, ?_⟩
      · intro h1 h2 h3
        by_contra h
        obtain ⟨i, hi⟩ := (part_cases hm hc).2.1 h1 h2 h3
        have hr := hruns _ hi
        have hno := additive_stops (sigma := sigma) (spec := s i) (sensSum_stops ha h)
        simp only [PartRuns, view] at hr
        split at hr <;>
        · rw [viewRuns_cons] at hr
          exact hno hr.1
      · intro h1 h2 h
        obtain ⟨i, j, n, hi⟩ := (part_cases hm hc).2.2.1 h1 h2
        have hr := hruns _ hi
        simp only [PartRuns, view, viewRuns_cons] at hr
        exact additive_stops (sensNormalizedSum_stops ha h1 h) hr.2.1
      · intro hmc
        obtain ⟨m, hm0, q1, q2, q3⟩ : ∃ m, 0 < m ∧ p.maxContributions = some m ∧ p.maxPartitions = none ∧
            p.maxPerPartition = none := by
          rcases ha.bounds with h | ⟨l0, linf, hl0, hl, q1, q2, q3⟩
          · exact h
          · exact absurd q1 hmc
        unfold gateOf at hg
        cases hb : b.selection with
        | some i =>
          rw [hb] at hg
          simp only [q2, natArg] at hg
          cases hmr : maxRowsPerId p <;> rw [hmr] at hg <;> simp at hg
        | none =>
          rw [hb] at hg hsel
          by_cases hp : p.postThresholding = true
          · exfalso
            obtain ⟨i, hi⟩ := (part_cases hm hc).2.2.2 (ha.thresholding hp) hp
            obtain ⟨j, hj, μ, hμ, -⟩ := thresholdPart_spec sigma p b.parts (List.ne_nil_of_mem (mem_thSpecs.mpr hi))
            have hm1 : (0 : ℝ) < m := by exact_mod_cast hm0
            have hsens : sensPrivacyIdCount p = .ok ⟨none, none, some (m : ℝ), some (Real.sqrt m)⟩ := by
              simp [sensPrivacyIdCount, q1, mkSens, positiveOrNone, hm1]
            simp only [hp, if_true, hμ, thresholdGate, hsens] at hg
            simp only [createThresholding, bind, Except.bind, pure, Except.pure] at hg
            cases h1 : Engine.Mechanism.toStrategy (s j).type with
            | error x => rw [h1] at hg; simp at hg
            | ok st =>
              cases h2 : computed (s j).eps with
              | error x => rw [h1, h2] at hg; simp at hg
              | ok e1 =>
                cases h3 : computed (s j).delta with
                | error x => rw [h1, h2, h3] at hg; simp at hg
                | ok d1 => rw [h1, h2, h3] at hg; simp at hg
          · refine ⟨by simpa using hp, fun hn => ?_⟩
            subst hn
            simpa [selectsPrivately, hp] using hsel

end Partition

/-! ### The properties -/

/-- The combined accumulators of a call, before selection. -/
theorem partitionAccumulators_runs (B : Backend) (hB : B.Lawful) {p : Params} (hp : p.BoundsValid) (cs : List (Combiner ℚ))
    (comb : List (K × (Combiner.compound cs).Acc) → List (K × (Combiner.compound cs).Acc)) (pub : Option (List K))
    (col : List (P × K × ℚ)) : ∃ out, partitionAccumulators B cs comb (fun _ _ => true) p pub col = .ok out := by
  obtain ⟨entries, -, h⟩ := accumulators_entries B hB p hp (Combiner.compound cs).sampling (Combiner.compound cs).create pub col
  have hrows : ∃ m, maxRowsPerId p = .ok m := by
    unfold maxRowsPerId
    rcases hp with ⟨m, hm, q1, q2, q3⟩ | ⟨l0, linf, hl0, hl, q1, q2, q3⟩
    · have : m ≠ 0 := by omega
      cases p.boundsEnforced <;> simp [q1, natArg, this]
    · cases p.boundsEnforced <;> simp [q1, q3, natArg]
  obtain ⟨m, hm⟩ := hrows
  simp only [partitionAccumulators, h, hm, bind, Except.bind, pure, Except.pure]
  split <;> exact ⟨_, rfl⟩

section Claims

variable {fmt : ℚ → String} {rs rs' : List Request} {b : Built} {s : Specs} {ε δ : ℕ → ℝ} {sigma : ℝ → ℝ → ℝ → ℝ}
  {pub : Option (List K)} {key : R → K} {value : R → ℚ}

/-- **C83.** A call of `aggregate` whose parameters are accepted, with metrics among COUNT, PRIVACY_ID_COUNT, SUM, MEAN and VARIANCE,
and which meets the conditions of `Evaluable`, is computed without an exception for all data, once its budgets are computed. -/
theorem C83_evaluable_calls_run (r : Raw) (h1 : postInit r = .ok ()) (h2 : checkAggregate r = .ok ()) (o : Params)
    (hm : OnlyScalars (r.arguments o)) (hx : build fmt rs (.aggregate (r.arguments o) pub key value) = (.ok b, rs'))
    (hbo : BuiltOk s ε δ r.noiseKind b) (he : Evaluable (r.arguments o) pub) (env : Env K) (henv : env.Lawful) (pid : R → P)
    (data : List R) : ∃ L, evalCall sigma s env pid b data (.aggregate (r.arguments o) pub key value) = .ok L := by
  have ha := accepted_of h1 h2 o hm.noVectors
  obtain ⟨⟨rs1, hc⟩, hsel⟩ := build_aggregate hx
  obtain ⟨out, hout⟩ := partitionAccumulators_runs env.backend henv.backend ha.bounds
    (combinersOf sigma (r.arguments o) b.parts) (env.combine (Combiner.compound _).merge) pub (extract pid key value data)
  simp only [evalCall, hout]
  have hc := candidate_runs (sigma := sigma) ha hm.noVectors hc hsel hbo he
  exact ⟨_, mapM_ok' _ (fun e => (hc e).choose) _ fun e _ => (hc e).choose_spec⟩

/-- **C83.** A call with accepted parameters which does not meet these conditions releases no partition, whatever the data and the
budgets are: it fails, or there is no partition at all. -/
theorem C83_other_calls_release_nothing (r : Raw) (h1 : postInit r = .ok ()) (h2 : checkAggregate r = .ok ()) (o : Params)
    (hm : OnlyScalars (r.arguments o)) (hx : build fmt rs (.aggregate (r.arguments o) pub key value) = (.ok b, rs'))
    (he : ¬ Evaluable (r.arguments o) pub) (env : Env K) (pid : R → P) (data : List R) (L)
    (hL : evalCall sigma s env pid b data (.aggregate (r.arguments o) pub key value) = .ok L) : L = [] := by
  have ha := accepted_of h1 h2 o hm.noVectors
  obtain ⟨⟨rs1, hc⟩, hsel⟩ := build_aggregate hx
  have hc := candidate_stops (s := s) (sigma := sigma) ha hm.noVectors hc hsel he
  simp only [evalCall] at hL
  split at hL
  · simp at hL
  · rename_i out hout
    cases out with
    | nil => simpa [pure, Except.pure] using hL.symm
    | cons e out => exact absurd hL (mapM_stops (List.mem_cons_self ..) (hc e) _)

/-- **C83.** With public partitions such a call fails for all data, also for empty data. -/
theorem C83_other_public_calls_fail (r : Raw) (h1 : postInit r = .ok ()) (h2 : checkAggregate r = .ok ()) (o : Params)
    (hm : OnlyScalars (r.arguments o)) {ps : List K} (hps : ps ≠ [])
    (hx : build fmt rs (.aggregate (r.arguments o) (some ps) key value) = (.ok b, rs'))
    (he : ¬ Evaluable (r.arguments o) (some ps)) (env : Env K) (henv : env.Lawful) (pid : R → P) (data : List R) :
    ∃ e, evalCall sigma s env pid b data (.aggregate (r.arguments o) (some ps) key value) = .error e := by
  have ha := accepted_of h1 h2 o hm.noVectors
  obtain ⟨⟨rs1, hc⟩, hsel⟩ := build_aggregate hx
  have hc := candidate_stops (s := s) (sigma := sigma) ha hm.noVectors hc hsel he
  obtain ⟨entries, -, hacc⟩ := accumulators_entries env.backend henv.backend (r.arguments o) ha.bounds
    (Combiner.compound (combinersOf sigma (r.arguments o) b.parts)).sampling
    (Combiner.compound (combinersOf sigma (r.arguments o) b.parts)).create (some ps) (extract pid key value data)
  have hC := henv.combine (Combiner.compound (combinersOf sigma (r.arguments o) b.parts)).merge
    (addEmptyPublic (Combiner.compound (combinersOf sigma (r.arguments o) b.parts)).create (some ps)
      (entries.map fun e => (e.1.2, (Combiner.compound (combinersOf sigma (r.arguments o) b.parts)).create e.2)))
  obtain ⟨k, hk⟩ := List.exists_mem_of_ne_nil _ hps
  have hmem := (hC.keys k).mpr (by simp [addEmptyPublic, hk])
  obtain ⟨e, hin, -⟩ := List.mem_map.mp hmem
  simp only [evalCall, partitionAccumulators, hacc, bind, Except.bind, pure, Except.pure, selectsPrivately, Option.isNone_some,
    Bool.false_and, Bool.false_eq_true, if_false]
  cases hr : List.mapM (candidate sigma s (r.arguments o) b) _ with
  | error x => exact ⟨x, rfl⟩
  | ok L => exact absurd hr (mapM_stops hin (hc e) L)

end Claims

/-! ### Examples -/

/-- SUM and COUNT of values in [0, 5] with at most 3 contributions of a user. -/
def usableArguments : Raw :=
  { metrics := some [.sum, .count], maxContributions := some (.int 3), minValue := some (.fin 0), maxValue := some (.fin 5) }

/-- MEAN of values in [1, 1]: accepted, but it cannot be computed. -/
def equalBounds : Raw :=
  { metrics := some [.mean], maxPartitions := some (.int 1), maxPerPartition := some (.int 1), minValue := some (.fin 1),
    maxValue := some (.fin 1) }

/-- The example of `Evaluable`: the hypotheses of the first theorem hold with public partitions 1 and 2 and computed budgets. -/
example : postInit usableArguments = .ok () ∧ checkAggregate usableArguments = .ok () ∧
    OnlyScalars (usableArguments.arguments { metrics := [] }) ∧
    Evaluable (usableArguments.arguments { metrics := [] }) (some [1, 2]) ∧
    ∃ b rs', build (fun _ => "") [] (.aggregate (usableArguments.arguments { metrics := [] }) (some [1, 2])
        (fun r : ℕ × ℕ × ℚ => r.2.1) (fun r => r.2.2)) = (.ok b, rs') ∧
      BuiltOk (fun _ => ⟨.laplace, none, some 1, some 0⟩) (fun _ => 1) (fun _ => 0) usableArguments.noiseKind b := by
  refine ⟨rfl, rfl, ?_, ⟨?_, ?_, ?_⟩, ?_⟩
  · intro m hm
    simp only [usableArguments, Raw.arguments, Option.getD_some, List.mem_cons, List.not_mem_nil, or_false] at hm
    rcases hm with rfl | rfl <;> simp
  · intro _ _ _
    refine ⟨?_, ?_, ?_⟩ <;> simp [usableArguments, Raw.arguments, Validation.Num.toRat?]
  · simp [usableArguments, Raw.arguments]
  · intro _
    exact ⟨rfl, by simp⟩
  · refine ⟨⟨[.count 0, .sum 1], none⟩, _, rfl, ?_, ?_, ?_⟩
    · intro part hp i hi
      have hk : part.mechanism usableArguments.noiseKind = .laplace := by
        simp only [List.mem_cons, List.not_mem_nil, or_false] at hp
        rcases hp with rfl | rfl <;> rfl
      exact ⟨by rw [hk]; rfl, by norm_num, le_refl _, fun h => absurd hk h⟩
    · simp
    · decide

/-- MEAN with equal bounds meets the hypotheses of the other theorems. -/
example : postInit equalBounds = .ok () ∧ checkAggregate equalBounds = .ok () ∧
    OnlyScalars (equalBounds.arguments { metrics := [] }) ∧
    (∃ b rs', build (fun _ => "") [] (.aggregate (equalBounds.arguments { metrics := [] }) (some [1, 2])
        (fun r : ℕ × ℕ × ℚ => r.2.1) (fun r => r.2.2)) = (.ok b, rs')) ∧
    ¬ Evaluable (equalBounds.arguments { metrics := [] }) (some [1, 2]) := by
  refine ⟨rfl, rfl, ?_, ⟨⟨[.mean 0 1 ["mean"]], none⟩, _, rfl⟩, fun h => ?_⟩
  · intro m hm
    simp only [equalBounds, Raw.arguments, Option.getD_some, List.mem_cons, List.not_mem_nil, or_false] at hm
    subst hm; simp
  · exact h.mean (by simp [equalBounds, Raw.arguments]) (by simp [equalBounds, Raw.arguments]) rfl

end PDP.EndToEnd
