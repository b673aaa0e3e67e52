import Verif.Validation.Model
import Mathlib.Tactic.Linarith
import Mathlib.Tactic.FieldSimp
import Mathlib.Tactic.Ring

/-! # Properties C26, C27, C28: parameter validation -/

set_option linter.unusedVariables false

namespace PDP.Validation

open PDP.Engine (Metric NoiseKind Err Params)

/-! ### Specification -/

/-- Both bounds missing, or both finite and in order. -/
def RangeOk (a b : Option Num) : Prop :=
  (a = none ∧ b = none) ∨ ∃ x y : ℚ, a = some (.fin x) ∧ b = some (.fin y) ∧ x ≤ y

/-- A positive integer was given. -/
def PositiveInt (a : Option IntArg) : Prop := ∃ z : ℤ, a = some (.int z) ∧ 0 < z

/-- The documented conditions on `AggregateParams`. -/
structure Documented (p : Raw) : Prop where
  /-- value bounds: both or none, finite, ordered -/
  values : RangeOk p.minValue p.maxValue
  /-- bounds on the sum per partition: both or none, finite, ordered -/
  sums : RangeOk p.minSum p.maxSum
  /-- only one kind of bounds -/
  oneKind : p.minValue = none ∨ p.minSum = none
  /-- vector sums are not combined with scalar metrics -/
  vector : ∀ ms, p.metrics = some ms → Metric.vectorSum ∈ ms →
    Metric.sum ∉ ms ∧ Metric.mean ∉ ms ∧ Metric.variance ∉ ms
  /-- with bounds on the sum per partition only SUM, COUNT and PRIVACY_ID_COUNT -/
  sumMetrics : ∀ ms, p.metrics = some ms → Metric.vectorSum ∉ ms → p.minSum ≠ none →
    ∀ m ∈ ms, m = .sum ∨ m = .privacyIdCount ∨ m = .count
  /-- without bounds only COUNT and PRIVACY_ID_COUNT -/
  noBounds : ∀ ms, p.metrics = some ms → Metric.vectorSum ∉ ms → p.minSum = none → p.minValue = none →
    ∀ m ∈ ms, m = .privacyIdCount ∨ m = .count
  /-- PRIVACY_ID_COUNT needs bounding by the engine -/
  enforced : ∀ ms, p.metrics = some ms → p.boundsEnforced = true → Metric.privacyIdCount ∉ ms
  /-- custom combiners are not mixed with metrics -/
  custom : p.custom = true → ∀ ms, p.metrics = some ms → ms = []
  /-- one bound on all contributions, or both bounds on partitions and contributions per partition -/
  bounds : (PositiveInt p.maxContributions ∧ p.maxPartitions = none ∧ p.maxPerPartition = none) ∨
    (p.maxContributions = none ∧ PositiveInt p.maxPartitions ∧ PositiveInt p.maxPerPartition)
  /-- the pre-threshold is positive -/
  preThreshold : p.preThreshold = none ∨ PositiveInt p.preThreshold

/-! ### Lemmas -/

theorem rejectIf_ok {c : Bool} {u : Unit} : rejectIf c = .ok u ↔ c = false := by
  cases c <;> simp [rejectIf]

theorem seq_ok {a b : Except Err Unit} {u : Unit} :
    (a >>= fun _ => b) = .ok u ↔ a = .ok () ∧ b = .ok u := by
  cases a <;> simp [bind, Except.bind]

theorem notPositiveInt_iff (a : Option IntArg) : notPositiveInt a = false ↔ PositiveInt a := by
  unfold notPositiveInt PositiveInt
  cases a with
  | none => simp
  | some x => cases x <;> simp

theorem checkRange_ok (a b : Option Num) (ha : a.isSome = true) (hb : (a.isNone != b.isNone) = false) :
    checkRange a b = .ok () ↔ RangeOk a b := by
  cases a with
  | none => simp at ha
  | some x =>
    cases b with
    | none => simp at hb
    | some y =>
      simp only [checkRange, seq_ok, rejectIf_ok, RangeOk]
      cases x <;> cases y <;> simp [Num.notProper, Num.lt]

theorem range_iff (a b : Option Num) :
    ((a.isNone != b.isNone) = false ∧ (if a.isSome then checkRange a b else .ok ()) = .ok ()) ↔ RangeOk a b := by
  by_cases hb : (a.isNone != b.isNone) = false
  · by_cases ha : a.isSome = true
    · rw [if_pos ha, checkRange_ok a b ha hb]; simp [hb]
    · rw [if_neg ha]
      have ha' : a = none := by simpa using ha
      subst ha'
      have hb' : b = none := by simpa using hb
      subst hb'
      simp [RangeOk]
  · constructor
    · intro h; exact absurd h.1 hb
    · intro h
      exfalso; apply hb
      rcases h with ⟨rfl, rfl⟩ | ⟨x, y, rfl, rfl, -⟩ <;> rfl

theorem checkMetrics_iff (p : Raw) (hs : p.minSum = none ∨ p.minSum ≠ none) :
    checkMetrics p = .ok () ↔
      (∀ ms, p.metrics = some ms → Metric.vectorSum ∈ ms → Metric.sum ∉ ms ∧ Metric.mean ∉ ms ∧ Metric.variance ∉ ms) ∧
      (∀ ms, p.metrics = some ms → Metric.vectorSum ∉ ms → p.minSum ≠ none →
        ∀ m ∈ ms, m = .sum ∨ m = .privacyIdCount ∨ m = .count) ∧
      (∀ ms, p.metrics = some ms → Metric.vectorSum ∉ ms → p.minSum = none → p.minValue = none →
        ∀ m ∈ ms, m = .privacyIdCount ∨ m = .count) ∧
      (∀ ms, p.metrics = some ms → p.boundsEnforced = true → Metric.privacyIdCount ∉ ms) := by
  unfold checkMetrics
  cases hm : p.metrics with
  | none => simp
  | some ms =>
    simp only [Option.getD_some, Option.some.injEq, forall_eq']
    cases ms with
    | nil => simp
    | cons m0 ms0 =>
      generalize hms : m0 :: ms0 = ms
      have hne : ms.isEmpty = false := by rw [← hms]; rfl
      rw [hne]
      simp only [Bool.false_eq_true, if_false, seq_ok]
      have he : rejectIf (p.boundsEnforced && decide (Metric.privacyIdCount ∈ ms)) = .ok () ↔
          (p.boundsEnforced = true → Metric.privacyIdCount ∉ ms) := by
        rw [rejectIf_ok]; cases p.boundsEnforced <;> simp
      rw [he]
      by_cases hv : Metric.vectorSum ∈ ms
      · rw [if_pos hv]
        simp only [rejectIf_ok]
        simp [hv, and_assoc]
      · rw [if_neg hv]
        by_cases h1 : p.minSum.isSome = true
        · rw [if_pos h1]
          have h1' : p.minSum ≠ none := by intro h; rw [h] at h1; simp at h1
          simp [hv, h1', rejectIf_ok, or_iff_not_imp_left]
        · rw [if_neg h1]
          have h1' : p.minSum = none := by simpa using h1
          by_cases h2 : p.minValue = none
          · simp [hv, h1', h2, rejectIf_ok, or_iff_not_imp_left]
          · have h2' : p.minValue.isSome = true := by
              cases h : p.minValue with
              | none => exact absurd h h2
              | some x => rfl
            simp [hv, h1', h2, h2']

theorem checkContributions_iff (p : Raw) :
    checkContributions p = .ok () ↔
      (PositiveInt p.maxContributions ∧ p.maxPartitions = none ∧ p.maxPerPartition = none) ∨
      (p.maxContributions = none ∧ PositiveInt p.maxPartitions ∧ PositiveInt p.maxPerPartition) := by
  unfold checkContributions
  cases hc : p.maxContributions with
  | some c =>
    simp only [Option.isSome_some, if_true, seq_ok, rejectIf_ok, notPositiveInt_iff]
    simp
  | none =>
    simp only [Option.isSome_none, Bool.false_eq_true, if_false, seq_ok, rejectIf_ok, notPositiveInt_iff]
    have h0 : ¬ PositiveInt none := by rintro ⟨z, h, -⟩; cases h
    constructor
    · rintro ⟨-, -, h1, h2⟩; exact Or.inr ⟨trivial, h1, h2⟩
    · rintro (⟨h, -⟩ | ⟨-, h1, h2⟩)
      · exact absurd h h0
      · obtain ⟨z, hz, hz0⟩ := h1
        obtain ⟨y, hy, hy0⟩ := h2
        exact ⟨by rw [hz]; rfl, by rw [hz, hy]; rfl, ⟨z, hz, hz0⟩, ⟨y, hy, hy0⟩⟩

/-! ### C26 -/

/-- **C26.** Constructing `AggregateParams` succeeds if and only if the documented conditions hold (numbers
may be NaN or infinite, integer parameters may be non-integers, metrics may be `None`). -/
theorem C26_accepted_iff_documented (p : Raw) : postInit p = .ok () ↔ Documented p := by
  have hv := range_iff p.minValue p.maxValue
  have hs := range_iff p.minSum p.maxSum
  have hm := checkMetrics_iff p (Classical.em _)
  have hc := checkContributions_iff p
  have h1 : (p.minValue.isSome && p.minSum.isSome) = false ↔ p.minValue = none ∨ p.minSum = none := by
    cases p.minValue <;> cases p.minSum <;> simp
  have h2 : (!(p.metrics.getD []).isEmpty && p.custom) = false ↔
      (p.custom = true → ∀ ms, p.metrics = some ms → ms = []) := by
    cases p.custom <;> cases p.metrics <;> simp
  have h3 : (if p.preThreshold.isSome then rejectIf (notPositiveInt p.preThreshold) else .ok ()) = .ok () ↔
      p.preThreshold = none ∨ PositiveInt p.preThreshold := by
    cases h : p.preThreshold with
    | none => simp
    | some x => simp [rejectIf_ok, notPositiveInt_iff]
  unfold postInit bothOrNone
  simp only [seq_ok, rejectIf_ok]
  rw [h1, h2, h3, hm, hc]
  constructor
  · rintro ⟨a, b, c, d, e, ⟨f1, f2, f3, f4⟩, g, h, i⟩
    exact ⟨hv.mp ⟨a, d⟩, hs.mp ⟨b, e⟩, c, f1, f2, f3, f4, g, h, i⟩
  · rintro ⟨a, b, c, f1, f2, f3, f4, g, h, i⟩
    exact ⟨(hv.mpr a).1, (hs.mpr b).1, c, (hv.mpr a).2, (hs.mpr b).2, ⟨f1, f2, f3, f4⟩, g, h, i⟩

/-- A rejected construction always raises `ValueError`. -/
theorem C26_rejection_is_value_error (p : Raw) (e : Err) (h : postInit p = .error e) : e = .valueError := by
  have hr : ∀ c e, rejectIf c = .error e → e = .valueError := by
    intro c e; cases c <;> simp [rejectIf]
    exact fun h => h.symm
  have seqE : ∀ (a b : Except Err Unit) (e : Err), (a >>= fun _ => b) = .error e →
      a = .error e ∨ (a = .ok () ∧ b = .error e) := by
    intro a b e h
    cases a with
    | error x => left; simpa [bind, Except.bind] using h
    | ok u => right; exact ⟨rfl, by simpa [bind, Except.bind] using h⟩
  have hrange : ∀ a b : Option Num, bothOrNone a b = .ok () → ∀ e,
      (if a.isSome then checkRange a b else .ok ()) = .error e → e = .valueError := by
    intro a b hb e he
    cases a with
    | none => simp at he
    | some x =>
      cases b with
      | none => simp [bothOrNone, rejectIf] at hb
      | some y =>
        simp only [Option.isSome_some, if_true, checkRange] at he
        rcases seqE _ _ _ he with h | ⟨-, h⟩
        · exact hr _ _ h
        · rcases seqE _ _ _ h with h | ⟨-, h⟩
          · exact hr _ _ h
          · exact hr _ _ h
  unfold postInit at h
  rcases seqE _ _ _ h with h | ⟨h1, h⟩
  · exact hr _ _ h
  rcases seqE _ _ _ h with h | ⟨h2, h⟩
  · exact hr _ _ h
  rcases seqE _ _ _ h with h | ⟨-, h⟩
  · exact hr _ _ h
  rcases seqE _ _ _ h with h | ⟨-, h⟩
  · exact hrange _ _ h1 _ h
  rcases seqE _ _ _ h with h | ⟨-, h⟩
  · exact hrange _ _ h2 _ h
  rcases seqE _ _ _ h with h | ⟨-, h⟩
  · unfold checkMetrics at h
    dsimp only at h
    split at h
    · cases h
    · rcases seqE _ _ _ h with h | ⟨-, h⟩
      · split at h
        · exact hr _ _ h
        · split at h
          · exact hr _ _ h
          · split at h
            · exact hr _ _ h
            · cases h
      · exact hr _ _ h
  rcases seqE _ _ _ h with h | ⟨-, h⟩
  · exact hr _ _ h
  rcases seqE _ _ _ h with h | ⟨-, h⟩
  · unfold checkContributions at h
    split at h
    · rcases seqE _ _ _ h with h | ⟨-, h⟩ <;> exact hr _ _ h
    · rcases seqE _ _ _ h with h | ⟨-, h⟩
      · exact hr _ _ h
      rcases seqE _ _ _ h with h | ⟨-, h⟩
      · exact hr _ _ h
      rcases seqE _ _ _ h with h | ⟨-, h⟩ <;> exact hr _ _ h
  split at h
  · exact hr _ _ h
  · cases h

/-- Accepted parameters meet the hypothesis `BoundsValid` of the sensitivity and partition theorems. -/
theorem C26_accepted_bounds_are_valid (p : Raw) (h : postInit p = .ok ()) : p.toParams.BoundsValid := by
  have hd := (C26_accepted_iff_documented p).mp h
  rcases hd.bounds with ⟨⟨z, hz, hpos⟩, h1, h2⟩ | ⟨h0, ⟨z, hz, hzp⟩, ⟨y, hy, hyp⟩⟩
  · left
    exact ⟨z.toNat, by omega, by simp [Raw.toParams, hz, IntArg.toNat?], by simp [Raw.toParams, h1],
      by simp [Raw.toParams, h2]⟩
  · right
    exact ⟨z.toNat, y.toNat, by omega, by omega, by simp [Raw.toParams, h0],
      by simp [Raw.toParams, hz, IntArg.toNat?], by simp [Raw.toParams, hy, IntArg.toNat?]⟩

/-- **C26.** `aggregate` accepts constructed parameters if and only if: `max_contributions` is used only with
PRIVACY_ID_COUNT, COUNT, SUM, MEAN; post-aggregation thresholding comes with PRIVACY_ID_COUNT; and metrics
are given if one of `max_contributions`, already enforced bounds or post-aggregation thresholding is used. -/
theorem C26_aggregate_accepts_iff (p : Raw) (h : postInit p = .ok ()) :
    checkAggregate p = .ok () ↔
      (p.maxContributions ≠ none → ∃ ms, p.metrics = some ms ∧
        ∀ m ∈ ms, m = .privacyIdCount ∨ m = .count ∨ m = .sum ∨ m = .mean) ∧
      (p.postThresholding = true → ∃ ms, p.metrics = some ms ∧ Metric.privacyIdCount ∈ ms) ∧
      (p.boundsEnforced = true → p.metrics ≠ none) := by
  have hd := (C26_accepted_iff_documented p).mp h
  have he := hd.enforced
  unfold checkAggregate
  simp only [seq_ok]
  cases hm : p.metrics with
  | none =>
    cases hc : p.maxContributions <;> cases hb : p.boundsEnforced <;> cases hp : p.postThresholding <;> simp
  | some ms =>
    have he' := he ms hm
    have e1 : (if p.maxContributions.isSome then
          if ms.any (fun m => decide (m ∉ [Metric.privacyIdCount, .count, .sum, .mean])) then
            Except.error Err.notImplemented else .ok () else Except.ok ()) = .ok () ↔
        (p.maxContributions ≠ none → ∀ m ∈ ms, m = .privacyIdCount ∨ m = .count ∨ m = .sum ∨ m = .mean) := by
      cases p.maxContributions with
      | none => simp
      | some x =>
        simp only [Option.isSome_some, if_true, ne_eq, reduceCtorEq, not_false_eq_true, forall_const]
        by_cases ha : ms.any (fun m => decide (m ∉ [Metric.privacyIdCount, .count, .sum, .mean])) = true
        · rw [if_pos ha]
          simp only [reduceCtorEq, false_iff]
          intro hall
          rw [List.any_eq_true] at ha
          obtain ⟨m, hm1, hm2⟩ := ha
          simp only [decide_eq_true_eq] at hm2
          apply hm2
          rcases hall m hm1 with h | h | h | h <;> simp [h]
        · rw [if_neg ha]
          simp only [true_iff]
          intro m hm1
          by_contra hcon
          apply ha
          rw [List.any_eq_true]
          exact ⟨m, hm1, by simpa using hcon⟩
    simp only [Option.some.injEq, exists_eq_left', ne_eq, reduceCtorEq, not_false_eq_true, implies_true, and_true]
    rw [e1]
    cases hb : p.boundsEnforced with
    | false =>
      cases hp : p.postThresholding <;> simp [rejectIf_ok]
    | true =>
      have := he' hb
      cases hp : p.postThresholding <;> simp [rejectIf_ok, this]

/-- **C26.** Post-aggregation thresholding can not be combined with already enforced bounds. -/
theorem C26_thresholding_excludes_enforced_bounds (p : Raw) (h : postInit p = .ok ())
    (h1 : p.postThresholding = true) (h2 : p.boundsEnforced = true) : checkAggregate p ≠ .ok () := by
  intro hc
  obtain ⟨-, h3, -⟩ := (C26_aggregate_accepts_iff p h).mp hc
  obtain ⟨ms, hm, hp⟩ := h3 h1
  exact ((C26_accepted_iff_documented p).mp h).enforced ms hm h2 hp

/-- **C26.** With a PLD accountant an aggregation is accepted if and only if the partitions are public, every metric
is COUNT, PRIVACY_ID_COUNT, SUM or MEAN and there are no custom combiners; custom combiners are refused with
`ValueError`, the rest with `NotImplementedError`.  A naive accountant accepts everything. -/
theorem C26_accountant_compatibility (naive publicPartitions custom : Bool) (ms : List Metric) :
    (checkAccountant naive publicPartitions ms custom = .ok () ↔ naive = true ∨
      (publicPartitions = true ∧ (∀ m ∈ ms, m = .count ∨ m = .privacyIdCount ∨ m = .sum ∨ m = .mean) ∧
        custom = false)) ∧
    (∀ e, checkAccountant naive publicPartitions ms custom = .error e → e = .notImplemented ∨
      (e = .valueError ∧ custom = true)) := by
  unfold checkAccountant
  have hany : (ms.any fun m => decide (m ∉ [Metric.count, .privacyIdCount, .sum, .mean])) = true ↔
      ¬ ∀ m ∈ ms, m = .count ∨ m = .privacyIdCount ∨ m = .sum ∨ m = .mean := by
    rw [List.any_eq_true, not_forall]
    constructor
    · rintro ⟨m, h1, h2⟩
      exact ⟨m, fun h => by simp at h2; have := h h1; tauto⟩
    · rintro ⟨m, h⟩
      rw [Classical.not_imp] at h
      exact ⟨m, h.1, by simpa using h.2⟩
  cases naive with
  | true => simp
  | false =>
    cases publicPartitions with
    | false => simp
    | true =>
      by_cases h : ∀ m ∈ ms, m = .count ∨ m = .privacyIdCount ∨ m = .sum ∨ m = .mean
      · have : ¬ (ms.any fun m => decide (m ∉ [Metric.count, .privacyIdCount, .sum, .mean])) = true := by
          rw [hany]; exact not_not.mpr h
        simp only [Bool.false_eq_true, if_false, Bool.not_true, this, false_or, true_and]
        cases custom
        · exact ⟨⟨fun _ => ⟨h, rfl⟩, fun _ => rfl⟩, fun e he => by cases he⟩
        · exact ⟨⟨fun he => (nomatch he), fun he => absurd he.2 (by simp)⟩,
            fun e he => by cases he; exact Or.inr ⟨rfl, rfl⟩⟩
      · have := hany.mpr h
        simp only [Bool.false_eq_true, if_false, Bool.not_true, this, if_true, false_or, true_and]
        exact ⟨⟨fun he => (nomatch he), fun he => absurd he.1 h⟩, fun e he => by cases he; exact Or.inl rfl⟩

example : checkAccountant false true [.count, .mean] false = .ok () ∧
    checkAccountant false true [.count, .variance] false = .error .notImplemented ∧
    checkAccountant false false [.count] false = .error .notImplemented ∧
    checkAccountant false true [] true = .error .valueError ∧ checkAccountant true false [.variance] true = .ok () := by
  decide +kernel

/-- **C26, gap.** With VECTOR_SUM among the metrics, PERCENTILE is accepted without value bounds, which are
otherwise required for it. -/
theorem C26_percentile_unbounded_with_vector_sum :
    let p : Raw := { metrics := some [.vectorSum, .percentile 50], maxPartitions := some (.int 1),
                     maxPerPartition := some (.int 1) }
    postInit p = .ok () ∧ postInit { p with metrics := some [.percentile 50] } = .error .valueError := by
  decide +kernel

/-- Accepted and rejected examples: SUM with bounds; NaN bound; half bounds; fractional bound. -/
example :
    let p : Raw := { metrics := some [.sum, .count], maxPartitions := some (.int 3), maxPerPartition := some (.int 1),
                     minValue := some (.fin 0), maxValue := some (.fin 5) }
    postInit p = .ok () ∧
    postInit { p with maxValue := some .nan } = .error .valueError ∧
    postInit { p with maxValue := none } = .error .valueError ∧
    postInit { p with maxPartitions := some .other } = .error .valueError ∧
    postInit { p with maxContributions := some (.int 1) } = .error .valueError ∧
    postInit { p with minValue := none, maxValue := none } = .error .valueError := by
  decide +kernel

/-! ### C27 -/

/-- What validation is meant to accept. -/
def ValidBudget (eps delta : Num) : Prop :=
  (eps = .posInf ∨ ∃ e : ℚ, eps = .fin e ∧ 0 < e) ∧ ∃ d : ℚ, delta = .fin d ∧ 0 ≤ d ∧ d < 1

theorem validate_iff (eps delta : Num) (he : eps ≠ .nan) (hd : delta ≠ .nan) :
    validateEpsilonDelta eps delta = .ok () ↔ ValidBudget eps delta := by
  unfold validateEpsilonDelta
  simp only [seq_ok, rejectIf_ok, ValidBudget]
  cases eps <;> cases delta <;> simp_all [Num.le, Num.lt]

/-- **C27.** For numbers, each entry point that takes (epsilon, delta) accepts them if and only if epsilon is
positive and delta is in [0, 1), together with the further conditions named here. -/
theorem C27_entry_points_accept_iff_valid (eps delta : Num) (he : eps ≠ .nan) (hd : delta ≠ .nan) :
    (validateEpsilonDelta eps delta = .ok () ↔ ValidBudget eps delta) ∧
    (∀ noise calcEps upper, calcEps ≠ .nan →
      (contributionBoundsParams noise eps delta calcEps upper = .ok () ↔
        ValidBudget eps delta ∧ noise ≠ none ∧ (noise = some .gaussian → delta ≠ .fin 0) ∧
        ValidBudget calcEps (.fin 0) ∧ PositiveInt upper)) ∧
    (∀ q : ℚ, utilityAnalysisOptions eps delta (.fin q) = .ok () ↔ ValidBudget eps delta ∧ 0 < q ∧ q ≤ 1) ∧
    (∀ pub, strategySelectorInit eps delta pub = .ok () ↔
      ValidBudget eps delta ∧ (pub = false → delta ≠ .fin 0)) := by
  have hv := validate_iff eps delta he hd
  refine ⟨hv, ?_, ?_, ?_⟩
  · intro noise calcEps upper hc
    have hv2 := validate_iff calcEps (.fin 0) hc (by decide)
    unfold contributionBoundsParams
    simp only [seq_ok, rejectIf_ok, notPositiveInt_iff, hv, hv2]
    have h1 : noise.isNone = false ↔ noise ≠ none := by cases noise <;> simp
    have h2 : (decide (noise = some .gaussian) && delta.eq (.fin 0)) = false ↔
        (noise = some .gaussian → delta ≠ .fin 0) := by
      by_cases hn : noise = some .gaussian
      · cases delta <;> simp_all [Num.eq]
      · simp [hn]
    rw [h1, h2]
  · intro q
    unfold utilityAnalysisOptions
    simp only [seq_ok, rejectIf_ok, hv]
    simp [Num.le, Num.lt]
  · intro pub
    unfold strategySelectorInit
    simp only [seq_ok, rejectIf_ok, hv]
    cases pub <;> cases delta <;> simp_all [Num.eq]

/-- **C27.** The budget accountant accepts a budget if and only if it is valid (and the restrictions on the
number and weights of aggregations are well formed). -/
theorem C27_accountant_accepts_iff (eps delta : ℚ) (num : Option ℤ) (ws : Option (List ℚ)) :
    (∃ s, PDP.Budget.init eps delta num ws = .ok s) ↔
      validateEpsilonDelta (.fin eps) (.fin delta) = .ok () ∧ (num = none ∨ ws = none) ∧ ∀ n, num = some n → 0 < n := by
  rw [validate_iff _ _ (by simp) (by simp)]
  have hval : ValidBudget (.fin eps) (.fin delta) ↔ 0 < eps ∧ 0 ≤ delta ∧ delta < 1 := by simp [ValidBudget]
  rw [hval]
  unfold PDP.Budget.init
  by_cases h1 : eps ≤ 0
  · simp [h1, not_lt.mpr h1]
  by_cases h2 : delta < 0
  · simp [h1, h2, not_le.mpr h2]
  by_cases h3 : 1 ≤ delta
  · simp [h1, h2, h3, not_lt.mpr h3]
  have h23 : ¬ (delta < 0 ∨ 1 ≤ delta) := by rintro (h | h); exacts [h2 h, h3 h]
  rw [if_neg h1, if_neg h23]
  have hv : 0 < eps ∧ 0 ≤ delta ∧ delta < 1 := ⟨not_le.mp h1, not_lt.mp h2, not_le.mp h3⟩
  cases num with
  | none => cases ws <;> simp [hv]
  | some n =>
    cases ws with
    | none => by_cases hn : n ≤ 0 <;> simp [hv, hn] <;> omega
    | some l => simp

/-- **C27, gap.** NaN passes validation, both as epsilon and as delta. -/
theorem C27_nan_is_accepted (d : ℚ) (h0 : 0 ≤ d) (h1 : d < 1) (e : ℚ) (he : 0 < e) :
    validateEpsilonDelta .nan (.fin d) = .ok () ∧ validateEpsilonDelta (.fin e) .nan = .ok () := by
  constructor
  · simp [validateEpsilonDelta, rejectIf, Num.le, Num.lt, not_lt.mpr h0, not_le.mpr h1, bind, Except.bind]
  · simp [validateEpsilonDelta, rejectIf, Num.le, Num.lt, not_le.mpr he, bind, Except.bind]

/-- **C27.** `AddDPNoiseParams` accepts numbers if and only if all given ones are positive; `None` is not checked. -/
theorem C27_add_dp_noise_params (l0 linf w : Option ℚ) :
    addDpNoiseParams (l0.map .fin) (linf.map .fin) (w.map .fin) = .ok () ↔
      (∀ x, l0 = some x → 0 < x) ∧ (∀ x, linf = some x → 0 < x) ∧ (∀ x, w = some x → 0 < x) := by
  unfold addDpNoiseParams
  simp only [seq_ok, rejectIf_ok]
  cases l0 <;> cases linf <;> cases w <;> simp [Num.le]

example : addDpNoiseParams (some (.fin 2)) (some (.fin (1 / 2))) none = .ok () ∧
    addDpNoiseParams (some (.fin 2)) (some (.fin 0)) none = .error .valueError := by decide +kernel

example : validateEpsilonDelta (.fin 1) (.fin 0) = .ok () ∧ validateEpsilonDelta (.fin 0) (.fin 0) = .error .valueError ∧
    validateEpsilonDelta .negInf (.fin 0) = .error .valueError ∧
    validateEpsilonDelta (.fin 1) (.fin 1) = .error .valueError := by decide +kernel

/-! ### C28 -/

theorem splitLoop_spec (rnd : ℚ → ℚ) (eps delta : ℚ) (n : ℤ) (k : ℕ) :
    (splitLoop rnd eps delta n k).1 = List.replicate k (rnd (eps / n), rnd (delta / n)) ∧
    (splitLoop rnd eps delta n k).2.1 = k * rnd (eps / n) ∧
    (splitLoop rnd eps delta n k).2.2 = k * rnd (delta / n) := by
  induction k with
  | zero => simp [splitLoop]
  | succ k ih =>
    obtain ⟨h1, h2, h3⟩ := ih
    simp only [splitLoop, h1, h2, h3]
    refine ⟨List.replicate_succ'.symm, ?_, ?_⟩ <;> push_cast <;> ring

/-- **C28.** `equally_split_budget` fails exactly for non-positive counts; otherwise it returns the requested
number of parts, whose epsilons and deltas sum to the input whatever the rounding of the division. -/
theorem C28_split_conserves_budget (rnd : ℚ → ℚ) (eps delta : ℚ) (n : ℤ) :
    (n ≤ 0 → equallySplit rnd eps delta n = .error .valueError) ∧
    (0 < n → ∃ parts, equallySplit rnd eps delta n = .ok parts ∧ (parts.length : ℤ) = n ∧
      (parts.map Prod.fst).sum = eps ∧ (parts.map Prod.snd).sum = delta) := by
  constructor
  · intro h; simp [equallySplit, h]
  · intro h
    obtain ⟨h1, h2, h3⟩ := splitLoop_spec rnd eps delta n (n - 1).toNat
    refine ⟨_, by unfold equallySplit; rw [if_neg (by omega)], ?_, ?_, ?_⟩
    · rw [h1]; simp; omega
    · rw [h1, h2]; simp
    · rw [h1, h3]; simp

/-- **C28.** Without rounding all parts are equal, and positive for a positive epsilon. -/
theorem C28_parts_are_equal (eps delta : ℚ) (n : ℤ) (h : 0 < n) :
    ∃ parts, equallySplit id eps delta n = .ok parts ∧ (∀ b ∈ parts, b = (eps / n, delta / n)) ∧
      (0 < eps → ∀ b ∈ parts, 0 < b.1) ∧ (0 ≤ delta → ∀ b ∈ parts, 0 ≤ b.2) := by
  obtain ⟨h1, h2, h3⟩ := splitLoop_spec id eps delta n (n - 1).toNat
  have hn : (0 : ℚ) < (n : ℚ) := by exact_mod_cast h
  have hk : (((n - 1).toNat : ℕ) : ℚ) = (n : ℚ) - 1 := by
    have : (((n - 1).toNat : ℕ) : ℤ) = n - 1 := Int.toNat_of_nonneg (by omega)
    have h2 : ((((n - 1).toNat : ℕ) : ℤ) : ℚ) = ((n - 1 : ℤ) : ℚ) := by rw [this]
    push_cast at h2
    exact_mod_cast h2
  have hall : ∀ b ∈ (splitLoop id eps delta n (n - 1).toNat).1 ++
      [(eps - (splitLoop id eps delta n (n - 1).toNat).2.1, delta - (splitLoop id eps delta n (n - 1).toNat).2.2)],
      b = (eps / n, delta / n) := by
    intro b hb
    rcases List.mem_append.mp hb with hb | hb
    · rw [h1] at hb; exact List.eq_of_mem_replicate hb
    · rw [List.mem_singleton.mp hb, h2, h3, hk]
      simp only [id]
      refine Prod.ext ?_ ?_ <;> simp only <;> field_simp <;> ring
  refine ⟨_, by unfold equallySplit; rw [if_neg (by omega)], hall, ?_, ?_⟩
  · intro he b hb; rw [hall b hb]; exact div_pos he hn
  · intro hd b hb; rw [hall b hb]; exact div_nonneg hd hn.le

example : equallySplit id 1 (1 / 1000) 4
    = .ok [(1 / 4, 1 / 4000), (1 / 4, 1 / 4000), (1 / 4, 1 / 4000), (1 / 4, 1 / 4000)] := by decide +kernel

end PDP.Validation
