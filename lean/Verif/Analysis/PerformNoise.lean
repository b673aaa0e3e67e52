import Verif.Analysis.Perform
import Verif.EndToEnd.Releases

/-!
# Property C65: budgets, noise and partition selection of the utility analysis are those of the engine
-/

set_option linter.unusedVariables false
set_option linter.unusedSectionVars false

namespace PDP.Analysis

open PDP
open PDP.Engine (NoiseKind Strategy natArg Part Request createCompound selectsPrivately requestCount)
open PDP.Engine.Mechanism (Spec computed)
open PDP.Engine.AddNoise (specOf)
open PDP.EndToEnd (Env additive toMechType Call Built planCalls evalCalls evalCall evalParts evalView view Candidate Noisy SpecOk
  SupportedAggregate budgetPart innerWeight needsDelta)

variable {R P K : Type} [DecidableEq P] [DecidableEq K]

/-! ### Specification -/

/-- The combiner uses a delta: it selects partitions or adds Gaussian noise. -/
def usesDelta (x : Kind × Engine.Params) : Bool := x.1 == .selection || x.2.noiseKind == .gaussian

/-- The share of one of `l.length` combiners: an equal part of epsilon and, if it uses a delta, an equal part of delta. -/
noncomputable def equalShare (e d : ℚ) (l : List (Kind × Engine.Params)) (x : Kind × Engine.Params) : Spec :=
  ⟨x.1.mechanism x.2, none, some ((e / l.length : ℚ) : ℝ),
    some (((if usesDelta x then d / (l.filter usesDelta).length else 0 : ℚ)) : ℝ)⟩

/-- What the combiner of the engine computes. -/
def kindOf : Part → Option Kind
  | .count _ => some .count
  | .privacyIdCount _ => some .idCount
  | .sum _ => some (.sum none)
  | _ => none

/-! ### Budgets of a configuration -/

/-- The mechanism registered for a combiner. -/
def mechOf (x : Kind × Engine.Params) : Budget.Mech := ⟨x.1.mechanism x.2, 1, 1, 1, none, none⟩

theorem requestAll_ok (l : List (Kind × Engine.Params)) : ∀ s : Budget.State, s.finalized = false → s.stack = [] →
    (s.totalDelta = 0 → ∀ x ∈ l, x.1 ≠ .selection → x.2.noiseKind ≠ .gaussian) →
    requestAll s l = .ok ({ s with mechs := s.mechs ++ l.map mechOf },
      l.mapIdx fun i x => (x.1, x.2, s.mechs.length + i)) := by
  induction l with
  | nil => intro s _ _ _; simp [requestAll]
  | cons x l ih =>
    intro s hf hst hd
    obtain ⟨k, p⟩ := x
    have hg : ¬(k.mechanism p = .gaussian ∧ s.totalDelta = 0) := by
      rintro ⟨h1, h2⟩
      have := hd h2 (k, p) (by simp)
      cases k <;> simp [Kind.mechanism] at h1 this <;> cases hn : p.noiseKind <;>
        simp [hn, NoiseKind.mechanism, toMechType] at h1 this
    have h1 : Budget.requestBudget s (k.mechanism p) 1 1 1 none
        = ({ s with mechs := s.mechs ++ [mechOf (k, p)] }, .ok s.mechs.length) := by
      unfold Budget.requestBudget
      simp [hf, hg, Budget.register, hst, mechOf]
    rw [requestAll, h1]
    dsimp only
    have h2 := ih { s with mechs := s.mechs ++ [mechOf (k, p)] } hf hst fun h x hx => hd h x (by simp [hx])
    dsimp only at h2
    rw [h2]
    simp only [List.map_cons, List.append_assoc, List.singleton_append, List.mapIdx_cons, Nat.add_zero, List.length_append,
      List.length_singleton]
    congr 4
    funext i x
    rw [show s.mechs.length + 1 + i = s.mechs.length + (i + 1) by omega]

theorem useDelta_mechOf (x : Kind × Engine.Params) : (mechOf x).useDelta = usesDelta x := by
  obtain ⟨k, p⟩ := x
  cases k <;> cases hn : p.noiseKind <;> simp [mechOf, Budget.Mech.useDelta, usesDelta, Kind.mechanism, hn, NoiseKind.mechanism,
    toMechType]

theorem filter_usesDelta_sum (l : List (Kind × Engine.Params)) :
    (l.map fun x => if usesDelta x then (1 : ℚ) else 0).sum = (l.filter usesDelta).length := by
  induction l with
  | nil => rfl
  | cons x l ih =>
    rw [List.map_cons, List.sum_cons, ih, List.filter_cons]
    split <;> simp [add_comm]

/-- **C65** (budgets).  The combiners of one configuration share the whole budget `(e, d)` of the options, independently of the
other configurations: each gets an equal part of epsilon, and each which uses a delta an equal part of delta. -/
theorem C65_configuration_budget {e d : ℚ} {s0 : Budget.State} (h0 : Budget.init e d none none = .ok s0)
    (l : List (Kind × Engine.Params)) (hd : d = 0 → ∀ x ∈ l, x.1 ≠ .selection → x.2.noiseKind ≠ .gaussian) :
    createConfiguration s0 l = .ok (l.map fun x => ⟨x.1, x.2, equalShare e d l x⟩) := by
  obtain ⟨he, hd0, -, hs0, -, -⟩ := Budget.init_facts h0
  subst hs0
  unfold createConfiguration
  rw [requestAll_ok l _ rfl rfl hd]
  dsimp only
  by_cases hl : l = []
  · subst hl; simp [Budget.computeBudgets, Budget.checkRestrictions, Budget.truthyNum, Budget.truthyList]
  have hne : l.map mechOf ≠ [] := by simpa using hl
  have hc : Budget.computeBudgets ⟨e, d, none, none, [], [], [] ++ l.map mechOf, false⟩
      = (⟨e, d, none, none, [], [], (l.map mechOf).map (Budget.assign e d (Budget.totalWeightEps (l.map mechOf))
          (Budget.totalWeightDelta (l.map mechOf))), true⟩, .ok ()) := by
    simp [Budget.computeBudgets, Budget.checkRestrictions, Budget.truthyNum, Budget.truthyList, hl]
  rw [hc]
  dsimp only
  have hW : Budget.totalWeightEps (l.map mechOf) = l.length := by
    rw [Budget.totalWeightEps_eq, List.map_map]
    simp [Function.comp_def, mechOf]
  have hD : Budget.totalWeightDelta (l.map mechOf) = (l.filter usesDelta).length := by
    rw [Budget.totalWeightDelta_eq, List.map_map, ← filter_usesDelta_sum]
    congr 1
    apply List.map_congr_left
    intro x _
    simp only [Function.comp_apply, useDelta_mechOf]
    simp [mechOf]
  rw [hW, hD]
  congr 1
  apply List.ext_getElem
  · simp
  intro i h1 h2
  have hi : i < l.length := by simpa using h2
  simp only [List.getElem_map, List.getElem_mapIdx, List.length_nil, Nat.zero_add, Created.mk.injEq, true_and]
  unfold specOf
  simp only [List.getElem?_map, List.getElem?_eq_getElem hi, Option.map_some]
  have hlen : (l.length : ℚ) ≠ 0 := by exact_mod_cast (show l.length ≠ 0 by omega)
  simp only [Budget.assign, useDelta_mechOf, equalShare, Option.map_some, Spec.mk.injEq, Option.some.injEq, true_and]
  refine ⟨rfl, ?_, ?_⟩
  · simp [hlen, mechOf]
  · by_cases hu : usesDelta l[i] = true
    · have : ((l.filter usesDelta).length : ℚ) ≠ 0 := by
        have : l[i] ∈ l.filter usesDelta := List.mem_filter.mpr ⟨List.getElem_mem hi, hu⟩
        exact_mod_cast (List.length_pos_of_mem this).ne'
      simp [hu, this, mechOf]
    · simp [hu]

/-- **C65** (budgets, totals).  The epsilons of a configuration with at least one combiner add up to the epsilon of the options,
and the deltas to the delta if there is a combiner which uses it. -/
theorem C65_configuration_spends_the_budget (e d : ℚ) (l : List (Kind × Engine.Params)) :
    (l ≠ [] → (l.map fun x => ((equalShare e d l x).eps.getD 0)).sum = (e : ℝ)) ∧
    ((∃ x ∈ l, usesDelta x = true) → (l.map fun x => ((equalShare e d l x).delta.getD 0)).sum = (d : ℝ)) := by
  constructor
  · intro hl
    have hlen : (l.length : ℝ) ≠ 0 := by
      have : l.length ≠ 0 := fun h => hl (List.length_eq_zero_iff.mp h)
      exact_mod_cast this
    simp only [equalShare, Option.getD_some, List.map_const', List.sum_replicate, nsmul_eq_mul]
    push_cast
    field_simp
  · rintro ⟨x, hx, hu⟩
    have hpos : ((l.filter usesDelta).length : ℚ) ≠ 0 := by
      have : x ∈ l.filter usesDelta := List.mem_filter.mpr ⟨hx, hu⟩
      exact_mod_cast (List.length_pos_of_mem this).ne'
    simp only [equalShare, Option.getD_some]
    have h1 : (l.map fun x => (((if usesDelta x then d / (l.filter usesDelta).length else 0 : ℚ)) : ℝ))
        = (l.map fun x => (if usesDelta x then (1 : ℚ) else 0) * (d / (l.filter usesDelta).length)).map fun q : ℚ => (q : ℝ) := by
      rw [List.map_map]
      apply List.map_congr_left
      intro y _
      simp only [Function.comp_apply]
      split <;> simp
    rw [h1, show ((l.map fun x => (if usesDelta x then (1 : ℚ) else 0) * (d / (l.filter usesDelta).length)).map
      fun q : ℚ => (q : ℝ)).sum = (((l.map fun x => (if usesDelta x then (1 : ℚ) else 0) * (d / (l.filter usesDelta).length)).sum
        : ℚ) : ℝ) from (map_list_sum (Rat.castHom ℝ) _).symm, List.sum_map_mul_right, filter_usesDelta_sum]
    rw [mul_div_cancel₀ _ hpos]

/-- Selection, SUM and COUNT with Laplace noise and budget (3, 1/10): epsilon 1 for each, delta only for selection. -/
example : ∃ s0, Budget.init 3 (1/10) none none = .ok s0 ∧
    createConfiguration s0 (asked false [.sum, .count] { metrics := [.sum, .count], minSum := some 0, maxSum := some 5 }
      [(some 0, some 5)]) = .ok
      [⟨.selection, { metrics := [.sum, .count], minSum := some 0, maxSum := some 5 },
        ⟨.generic, none, some ((3 / 3 : ℚ) : ℝ), some ((1 / 10 : ℚ) : ℝ)⟩⟩,
       ⟨.sum none, { metrics := [.sum, .count], minSum := some 0, maxSum := some 5 },
        ⟨.laplace, none, some ((3 / 3 : ℚ) : ℝ), some ((0 : ℚ) : ℝ)⟩⟩,
       ⟨.count, { metrics := [.sum, .count], minSum := some 0, maxSum := some 5 },
        ⟨.laplace, none, some ((3 / 3 : ℚ) : ℝ), some ((0 : ℚ) : ℝ)⟩⟩] := by
  have h0 : Budget.init 3 (1/10) none none = .ok ⟨3, 1/10, none, none, [], [], [], false⟩ := by norm_num [Budget.init]
  refine ⟨_, h0, ?_⟩
  rw [C65_configuration_budget (e := 3) (d := 1/10) h0 _ (by norm_num)]
  simp [asked, equalShare, usesDelta, Kind.mechanism, NoiseKind.mechanism, toMechType]

/-! ### The engine -/

/-- The combiners of the engine for the metrics which the analysis supports. -/
theorem engine_parts {fmt : ℚ → String} {p : Engine.Params} (hm : ∀ m ∈ p.metrics, m = .count ∨ m = .sum ∨ m = .privacyIdCount)
    (ht : p.postThresholding = false) {parts : List Part} {rs : List Request} (h : createCompound fmt p [] = (.ok parts, rs)) :
    (∀ part ∈ parts, ∃ k, kindOf part = some k ∧ (k = .count ∧ .count ∈ p.metrics ∨ k = .sum none ∧ .sum ∈ p.metrics ∨
      k = .idCount ∧ .privacyIdCount ∈ p.metrics)) ∧
    (.count ∈ p.metrics → ∃ part ∈ parts, kindOf part = some .count) ∧
    (.sum ∈ p.metrics → ∃ part ∈ parts, kindOf part = some (.sum none)) ∧
    (.privacyIdCount ∈ p.metrics → ∃ part ∈ parts, kindOf part = some .idCount) ∧
    requestCount p = (if Engine.Metric.count ∈ p.metrics then 1 else 0) + (if Engine.Metric.sum ∈ p.metrics then 1 else 0) +
      (if Engine.Metric.privacyIdCount ∈ p.metrics then 1 else 0) := by
  have a1 : Engine.Metric.variance ∉ p.metrics := fun h => by have := hm _ h; simp at this
  have a2 : Engine.Metric.mean ∉ p.metrics := fun h => by have := hm _ h; simp at this
  have a3 : Engine.Metric.vectorSum ∉ p.metrics := fun h => by have := hm _ h; simp at this
  have a4 : p.metrics.filterMap Engine.Metric.percentile? = [] := by
    rw [List.filterMap_eq_nil_iff]
    intro m h
    rcases hm m h with rfl | rfl | rfl <;> rfl
  have hpar : parts = ((if Engine.Metric.count ∈ p.metrics then [Part.count 0] else []) ++
      (if Engine.Metric.sum ∈ p.metrics then [Part.sum (if Engine.Metric.count ∈ p.metrics then 1 else 0)] else [])) ++
      (if Engine.Metric.privacyIdCount ∈ p.metrics then [Part.privacyIdCount
        ((if Engine.Metric.count ∈ p.metrics then 1 else 0) + (if Engine.Metric.sum ∈ p.metrics then 1 else 0))] else []) := by
    by_cases c1 : Engine.Metric.count ∈ p.metrics <;> by_cases c2 : Engine.Metric.sum ∈ p.metrics <;>
      by_cases c3 : Engine.Metric.privacyIdCount ∈ p.metrics <;>
      · simp [createCompound, Engine.scalarParts, Engine.privacyIdPart, Engine.vectorPart, Engine.quantilePart, a1, a2, a3, a4, c1,
          c2, c3, ht, Engine.requestBudget, Part.names] at h ⊢
        first | exact h.1.symm | exact h.1
  refine ⟨?_, ?_, ?_, ?_, ?_⟩
  · intro part hpart
    rw [hpar] at hpart
    simp only [List.mem_append] at hpart
    rcases hpart with (hp | hp) | hp
    · split at hp
      · rw [List.mem_singleton] at hp; subst hp; exact ⟨_, rfl, .inl ⟨rfl, ‹_›⟩⟩
      · simp at hp
    · split at hp
      · rw [List.mem_singleton] at hp; subst hp; exact ⟨_, rfl, .inr (.inl ⟨rfl, ‹_›⟩)⟩
      · simp at hp
    · split at hp
      · rw [List.mem_singleton] at hp; subst hp; exact ⟨_, rfl, .inr (.inr ⟨rfl, ‹_›⟩)⟩
      · simp at hp
  · intro h; exact ⟨.count 0, by simp [hpar, h], rfl⟩
  · intro h; exact ⟨.sum (if Engine.Metric.count ∈ p.metrics then 1 else 0), by simp [hpar, h], rfl⟩
  · intro h
    exact ⟨.privacyIdCount ((if Engine.Metric.count ∈ p.metrics then 1 else 0) +
      (if Engine.Metric.sum ∈ p.metrics then 1 else 0)), by simp [hpar, h], rfl⟩
  · simp [requestCount, a1, a2, a3, a4]

theorem mem_of_mapM_ok {α β ε : Type} {f : α → Except ε β} {l : List α} {r : List β} (h : l.mapM f = .ok r) (b : β) (hb : b ∈ r) :
    ∃ a ∈ l, f a = .ok b := by
  have := EndToEnd.mapM_inv h
  clear h
  induction this with
  | nil => simp at hb
  | cons h1 h2 ih =>
    rcases List.mem_cons.mp hb with rfl | hb
    · exact ⟨_, by simp, h1⟩
    · obtain ⟨a, ha, h⟩ := ih hb
      exact ⟨a, by simp [ha], h⟩

/-- A released number is a number of one of the combiners. -/
theorem number_of_part (sigma : ℝ → ℝ → ℝ → ℝ) (s : EndToEnd.Specs) (p : Engine.Params) (k : K) :
    ∀ (parts : List Part) (a) (l : List (Noisy K)), evalParts sigma s p k parts a = .ok l → ∀ n ∈ l,
      ∃ part ∈ parts, ∃ x ∈ (view sigma p part).numbers, x.spec = n.spec ∧ x.mech (s n.spec) = .ok n.mech := by
  intro parts
  induction parts with
  | nil =>
    intro a l h n hn
    simp only [evalParts, Except.ok.injEq] at h
    subst h; simp at hn
  | cons part parts ih =>
    intro a l h n hn
    rw [evalParts] at h
    cases h1 : evalView s k (view sigma p part) a.1 with
    | error e => rw [h1] at h; exact nomatch h
    | ok x =>
      rw [h1] at h
      cases h2 : evalParts sigma s p k parts a.2 with
      | error e =>
        simp only [bind, Except.bind] at h
        erw [h2] at h; exact nomatch h
      | ok y =>
        simp only [bind, Except.bind] at h
        erw [h2] at h
        have h : x ++ y = l := by simpa [pure, Except.pure] using h
        subst h
        rcases List.mem_append.mp hn with hn | hn
        · refine ⟨part, by simp, ?_⟩
          unfold evalView at h1
          obtain ⟨z, hz, hzn⟩ := mem_of_mapM_ok h1 n hn
          refine ⟨z, hz, ?_⟩
          cases h3 : z.mech (s z.spec) with
          | error e => simp [h3, bind, Except.bind] at hzn
          | ok m =>
            simp only [h3, bind, Except.bind, pure, Except.pure, Except.ok.injEq] at hzn
            subst hzn
            exact ⟨rfl, h3⟩
        · obtain ⟨part', hp, r⟩ := ih a.2 y h2 n hn
          exact ⟨part', by simp [hp], r⟩

/-- The parameters on which analysis and engine are compared: supported by both, with at least one metric. -/
structure Comparable (p : Engine.Params) (pub : Option (List K)) : Prop where
  supported : SupportedAggregate p pub
  metrics : ∀ m ∈ p.metrics, m = .count ∨ m = .sum ∨ m = .privacyIdCount
  nonempty : p.metrics ≠ []
  thresholding : p.postThresholding = false
  weight : pub = none → p.budgetWeight = 1

theorem asked_length (p : Engine.Params) (pub : Option (List K)) :
    (asked pub.isSome p.metrics p [(p.minSum, p.maxSum)]).length = (if pub = none then 1 else 0) +
      ((if Engine.Metric.count ∈ p.metrics then 1 else 0) + (if Engine.Metric.sum ∈ p.metrics then 1 else 0) +
      (if Engine.Metric.privacyIdCount ∈ p.metrics then 1 else 0)) := by
  cases pub <;> by_cases c1 : Engine.Metric.count ∈ p.metrics <;> by_cases c2 : Engine.Metric.sum ∈ p.metrics <;>
    by_cases c3 : Engine.Metric.privacyIdCount ∈ p.metrics <;> simp [asked, c1, c2, c3]

theorem asked_params (p : Engine.Params) (isPublic : Bool) :
    ∀ x ∈ asked isPublic p.metrics p [(p.minSum, p.maxSum)], x.2 = p := by
  intro x hx
  simp only [asked, List.mem_append] at hx
  rcases hx with ((hx | hx) | hx) | hx <;> split at hx <;> simp at hx <;> rw [hx]

theorem asked_selections (p : Engine.Params) (pub : Option (List K)) :
    ((asked pub.isSome p.metrics p [(p.minSum, p.maxSum)]).filter fun x => x.1 == .selection).length
      = if pub = none then 1 else 0 := by
  cases pub <;> by_cases c1 : Engine.Metric.count ∈ p.metrics <;> by_cases c2 : Engine.Metric.sum ∈ p.metrics <;>
    by_cases c3 : Engine.Metric.privacyIdCount ∈ p.metrics <;> simp [asked, c1, c2, c3]

theorem asked_delta (p : Engine.Params) (pub : Option (List K)) :
    ((asked pub.isSome p.metrics p [(p.minSum, p.maxSum)]).filter usesDelta).length
      = if p.noiseKind = .gaussian then (asked pub.isSome p.metrics p [(p.minSum, p.maxSum)]).length
        else if pub = none then 1 else 0 := by
  by_cases hg : p.noiseKind = .gaussian
  · rw [if_pos hg, List.filter_eq_self.mpr]
    intro x hx
    simp [usesDelta, asked_params p _ x hx, hg]
  · rw [if_neg hg, ← asked_selections p pub]
    congr 1
    apply List.filter_congr
    intro x hx
    simp [usesDelta, asked_params p _ x hx, hg]

theorem built_selection {fmt : ℚ → String} {p : Engine.Params} {pub : Option (List K)} {key : R → K} {value : R → ℚ}
    (hc : Comparable p pub) {rs rs' : List Request} {b : Built} (hb : EndToEnd.build fmt rs (.aggregate p pub key value) = (.ok b, rs')) :
    b.selection.isSome = pub.isNone := by
  rw [(EndToEnd.build_aggregate hb).2]
  unfold selectsPrivately
  cases pub with
  | none => simp [hc.thresholding, (hc.supported.hidden rfl).2 hc.thresholding]
  | some ps => simp

/-- The budgets of the engine. -/
theorem engine_specs {fmt : ℚ → String} {p : Engine.Params} {pub : Option (List K)} {key : R → K} {value : R → ℚ}
    (hc : Comparable p pub) {e d : ℚ} {s0} (h0 : Budget.init e d none none = .ok s0)
    (hd : p.noiseKind = .gaussian ∨ pub = none → 0 < d) :
    ∃ b ops, planCalls fmt [] [Call.aggregate p pub key value] = .ok ([b], ops) ∧
      (∃ rs, createCompound fmt p [] = (.ok b.parts, rs)) ∧ b.selection.isSome = pub.isNone ∧
      (∀ part ∈ b.parts, ∀ k, kindOf part = some k → ∀ i ∈ part.specs,
        specOf (Budget.step (Budget.run s0 ops).1 .compute).1 i
          = equalShare e d (asked pub.isSome p.metrics p [(p.minSum, p.maxSum)]) (k, p)) ∧
      (∀ i, b.selection = some i →
        specOf (Budget.step (Budget.run s0 ops).1 .compute).1 i
          = equalShare e d (asked pub.isSome p.metrics p [(p.minSum, p.maxSum)]) (.selection, p)) := by
  have hs : ∀ c ∈ [Call.aggregate p pub key value], c.Supported := fun c h => by
    rw [List.mem_singleton.mp h]; exact hc.supported
  have hd' : (∃ c ∈ [Call.aggregate p pub key value], c.NeedsDelta) → 0 < d := by
    rintro ⟨c, hc', hn⟩
    rw [List.mem_singleton] at hc'
    subst hc'
    exact hd hn
  have hm : ∀ p' pub' key' value', Call.aggregate p' pub' key' value' ∈ [Call.aggregate p pub key value] → p'.metrics ≠ [] := by
    intro p' pub' key' value' h'
    simp only [List.mem_singleton, Call.aggregate.injEq] at h'
    rw [h'.1]; exact hc.nonempty
  obtain ⟨bs, ops, hp, -, hcomp⟩ := EndToEnd.C62_supported_pipeline_runs fmt [Call.aggregate p pub key value] hs h0 hd'
    ⟨by simp, by simp⟩
  have hshare := EndToEnd.C63_budget_shares fmt _ hs hm h0 hd' ⟨by simp, by simp⟩ hp
  obtain ⟨hlen, hne, hpos, -⟩ := EndToEnd.plan_registered hs hm hp
  obtain ⟨hplain, new, hreq, hspecs, hrq, hnd⟩ := EndToEnd.planCalls_spec hs hp
  obtain ⟨ε, δ, hok, -, -⟩ := EndToEnd.budgets_published hplain hreq h0 (fun r hr hne => hd' (hnd r hr hne)) hcomp
  -- the only built call
  obtain ⟨b, rfl⟩ : ∃ b, bs = [b] := by
    match bs, hlen with
    | [b], _ => exact ⟨b, rfl⟩
  have hbuild : ∃ rs', EndToEnd.build fmt [] (Call.aggregate p pub key value) = (.ok b, rs') := by
    rcases hx : EndToEnd.build fmt [] (Call.aggregate p pub key value) with ⟨r, rs'⟩
    simp only [planCalls, hx] at hp
    cases r with
    | error e => simp at hp
    | ok b' =>
      simp only [Except.ok.injEq, Prod.mk.injEq, List.cons.injEq, and_true] at hp
      exact ⟨rs', by rw [hp.1]⟩
  obtain ⟨rs', hb⟩ := hbuild
  obtain ⟨⟨rs1, hcc⟩, -⟩ := EndToEnd.build_aggregate hb
  have hsel := built_selection hc hb
  obtain ⟨g1, -, -, -, g5⟩ := engine_parts hc.metrics hc.thresholding hcc
  obtain ⟨new', -, hnl, hns, -⟩ := Engine.C21_each_budget_is_used_once fmt p [] b.parts (by rw [hcc])
  set x : Call R K × Built := (Call.aggregate p pub key value, b) with hx
  set n := (asked pub.isSome p.metrics p [(p.minSum, p.maxSum)]).length with hn
  have hspl : b.specs.length = n := by
    rw [hn, asked_length]
    unfold Built.specs
    rw [List.length_append, hns, List.length_range', hnl, g5, Nat.add_comm]
    congr 1
    cases pub with
    | none => obtain ⟨i, hi⟩ := Option.isSome_iff_exists.mp hsel; simp [hi]
    | some ps =>
      have : b.selection = none := by simpa using hsel
      simp [this]
  have hw : 0 < p.budgetWeight := hc.supported.weight
  have hinner : ∀ i, innerWeight x i = p.budgetWeight := by
    intro i
    unfold innerWeight
    split
    · rename_i h
      have : b.selection = some i := h
      rw [this] at hsel
      exact (hc.weight (by simpa using hsel.symm)).symm
    · rfl
  have hnpos : (0 : ℚ) < n := by
    rw [← hspl]
    have := hne b (by simp)
    exact_mod_cast List.length_pos_iff.mpr this
  have hpart : ∀ i, budgetPart x i = p.budgetWeight / n := by
    intro i
    unfold budgetPart
    have : (x.2.specs.map (innerWeight x)).sum = n * p.budgetWeight := by
      rw [List.map_congr_left fun i _ => hinner i]
      simp [← hspl, hx]
    rw [this, hinner]
    show p.budgetWeight * _ = _
    field_simp
  have hnth : ∀ i, needsDelta x i = (b.selection == some i || p.noiseKind == .gaussian) := by
    intro i
    unfold needsDelta
    have : (b.parts.any fun part => part == .thresholding i) = false := by
      rw [List.any_eq_false]
      intro part hpart
      obtain ⟨k, hk, -⟩ := g1 part hpart
      cases part <;> simp [kindOf] at hk ⊢
    rw [show x.2.parts = b.parts from rfl, this, Bool.or_false]
    rfl
  have hcount : ((b.specs.filter fun i => needsDelta x i).length : ℚ)
      = ((asked pub.isSome p.metrics p [(p.minSum, p.maxSum)]).filter usesDelta).length := by
    rw [asked_delta]
    by_cases hg : p.noiseKind = .gaussian
    · rw [if_pos hg, List.filter_eq_self.mpr (fun i _ => by simp [hnth, hg]), hspl]
    · rw [if_neg hg]
      have : (b.specs.filter fun i => needsDelta x i) = b.selection.toList := by
        have hnd : b.specs.Nodup := by
          have h1 : [b].flatMap Built.specs = b.specs := by simp
          rw [← h1, hspecs]; exact List.nodup_range'
        unfold Built.specs at hnd ⊢
        rw [List.filter_append]
        have f1 : (b.parts.flatMap Part.specs).filter (fun i => needsDelta x i) = [] := by
          rw [List.filter_eq_nil_iff]
          intro i hi h
          rw [hnth] at h
          have hsi : b.selection = some i := by simpa [hg] using h
          exact (List.nodup_append.mp hnd).2.2 i hi i (by simp [hsi]) rfl
        have f2 : b.selection.toList.filter (fun i => needsDelta x i) = b.selection.toList := by
          rw [List.filter_eq_self]
          intro i hi
          rw [hnth]
          have : b.selection = some i := by simpa using hi
          simp [this]
        rw [f1, f2, List.nil_append]
      rw [this]
      cases pub with
      | none => obtain ⟨i, hi⟩ := Option.isSome_iff_exists.mp hsel; simp [hi]
      | some ps =>
        have : b.selection = none := by simpa using hsel
        simp [this]
  -- shares
  have hval : ∀ i ∈ b.specs, ∀ m, SpecOk (specOf (Budget.step (Budget.run s0 ops).1 .compute).1) ε δ i m →
      specOf (Budget.step (Budget.run s0 ops).1 .compute).1 i = ⟨toMechType m, none, some ((e / n : ℚ) : ℝ),
        some ((if needsDelta x i then
          d / ((asked pub.isSome p.metrics p [(p.minSum, p.maxSum)]).filter usesDelta).length else 0 : ℚ) : ℝ)⟩ := by
    intro i hi m hm
    obtain ⟨g1, g2⟩ := hshare x (by simp [hx]) i hi
    obtain ⟨m1, a1, a2⟩ := Budget.seesEps_iff.mp g1
    obtain ⟨m2, b1, b2⟩ := Budget.seesDelta_iff.mp g2
    obtain rfl : m1 = m2 := by rw [a1] at b1; exact Option.some.inj b1
    have heq := hm.eq
    unfold specOf at heq ⊢
    rw [a1] at heq ⊢
    dsimp only at heq ⊢
    rw [a2, b2] at heq ⊢
    simp only [Option.map_some, Spec.mk.injEq, Option.some.injEq, true_and] at heq ⊢
    refine ⟨heq.1, ?_, ?_⟩
    · rw [hpart]
      simp only [List.map_cons, List.map_nil, List.sum_singleton]
      congr 1
      show e * (p.budgetWeight / n) / p.budgetWeight = _
      field_simp
    · congr 1
      by_cases hnd : needsDelta x i = true
      · simp only [hnd, if_true, hpart, List.zip_cons_cons, List.zip_nil_right, List.flatMap_cons, List.flatMap_nil,
          List.append_nil, List.filter_map, List.map_map]
        rw [← hcount]
        have hl : (((b.specs.filter fun i => needsDelta x i).length : ℕ) : ℚ) ≠ 0 := by
          have : i ∈ b.specs.filter fun i => needsDelta x i := List.mem_filter.mpr ⟨hi, hnd⟩
          exact_mod_cast (List.length_pos_of_mem this).ne'
        have hsum : ((b.specs.filter ((fun y : (Call R K × Built) × ℕ => needsDelta y.1 y.2) ∘ fun i => (x, i))).map
            ((fun y : (Call R K × Built) × ℕ => budgetPart y.1 y.2) ∘ fun i => (x, i))).sum
            = ((b.specs.filter fun i => needsDelta x i).length : ℚ) * (p.budgetWeight / n) := by
          have : ((fun y : (Call R K × Built) × ℕ => budgetPart y.1 y.2) ∘ fun i => (x, i)) = fun _ => p.budgetWeight / n :=
            funext hpart
          rw [this]
          simp [Function.comp_def]
        rw [hsum]
        field_simp
      · simp [hnd]
  have hrqx := hrq x (by simp [hx])
  rw [List.nil_append] at hrqx
  refine ⟨b, ops, hp, ⟨rs1, hcc⟩, hsel, fun part hpart' k hk i hi => ?_, fun i hi => ?_⟩
  · obtain ⟨w, hw⟩ := hrqx.parts part hpart' i hi
    have hmem : i ∈ b.specs := List.mem_append_left _ (List.mem_flatMap.mpr ⟨part, hpart', hi⟩)
    rw [hval i hmem _ (hok i _ hw)]
    have hns : b.selection ≠ some i := by
      intro h
      obtain ⟨w', hw'⟩ := hrqx.selection i h
      rw [hw] at hw'
      have := (Request.mk.injEq .. ▸ Option.some.inj hw' : _ ∧ _).1
      cases part <;> simp [kindOf] at hk <;> cases hnk : x.1.kind <;>
        simp [Part.mechanism, hnk, NoiseKind.mechanism] at this
    have hmech : toMechType (part.mechanism x.1.kind) = k.mechanism p ∧ k ≠ .selection := by
      cases part <;> simp [kindOf] at hk <;> subst hk <;> exact ⟨rfl, by simp⟩
    unfold equalShare
    have hu : usesDelta (k, p) = needsDelta x i := by
      have h1 : (b.selection == some i) = false := by
        cases hb' : b.selection == some i with
        | false => rfl
        | true => exact absurd (by simpa using hb') hns
      have h2 : (k == Kind.selection) = false := by
        cases hk' : k == Kind.selection with
        | false => rfl
        | true => exact absurd (by simpa using hk') hmech.2
      rw [hnth, h1]
      unfold usesDelta
      rw [h2]
    rw [hmech.1, hu]
  · obtain ⟨w, hw⟩ := hrqx.selection i hi
    have hmem : i ∈ b.specs := List.mem_append_right _ (by rw [show b.selection = some i from hi]; simp)
    rw [hval i hmem _ (hok i _ hw)]
    unfold equalShare
    have hu : usesDelta (.selection, p) = needsDelta x i := by
      rw [hnth, show b.selection = some i from hi]; simp [usesDelta]
    rw [hu]
    rfl

theorem evalCalls_single {sigma : ℝ → ℝ → ℝ → ℝ} {s : EndToEnd.Specs} {env : ℕ → Env K} {pid : R → P} {data : List R} {c : Call R K}
    {b : Built} {L : List (Candidate K)} (h : evalCalls sigma s env pid data 0 [c] [b] = .ok [L]) :
    evalCall sigma s (env 0) pid b data c = .ok L := by
  simp only [evalCalls] at h
  cases h1 : evalCall sigma s (env 0) pid b data c with
  | error e => simp [h1] at h
  | ok x => simpa [h1] using h

theorem candidate_of {sigma : ℝ → ℝ → ℝ → ℝ} {s : EndToEnd.Specs} {env : Env K} {pid : R → P} {data : List R} {p : Engine.Params}
    {pub : Option (List K)} {key : R → K} {value : R → ℚ} {b : Built} {L : List (Candidate K)}
    (h : evalCall sigma s env pid b data (.aggregate p pub key value) = .ok L) (c : Candidate K) (hc : c ∈ L) :
    ∃ a, EndToEnd.gateOf sigma s p b a = .ok c.gate ∧ evalParts sigma s p c.key b.parts a.2 = .ok c.numbers := by
  simp only [evalCall] at h
  split at h
  · exact nomatch h
  · rename_i out hout
    obtain ⟨x, hx, hxc⟩ := mem_of_mapM_ok h c hc
    unfold EndToEnd.candidate at hxc
    cases h1 : EndToEnd.gateOf sigma s p b x.2 with
    | error e => simp [h1] at hxc
    | ok g =>
      cases h2 : evalParts sigma s p x.1 b.parts x.2.2 with
      | error e => simp [h1, h2] at hxc
      | ok l =>
        simp only [h1, h2, Except.ok.injEq] at hxc
        subst hxc
        exact ⟨x.2, h1, h2⟩

theorem asked_kinds (p : Engine.Params) (isPublic : Bool) (k : Kind) :
    (k, p) ∈ asked isPublic p.metrics p [(p.minSum, p.maxSum)] ↔ (k = .selection ∧ isPublic = false) ∨
      (k = .sum none ∧ Engine.Metric.sum ∈ p.metrics) ∨ (k = .count ∧ Engine.Metric.count ∈ p.metrics) ∨
      (k = .idCount ∧ Engine.Metric.privacyIdCount ∈ p.metrics) := by
  cases isPublic <;> by_cases c1 : Engine.Metric.count ∈ p.metrics <;> by_cases c2 : Engine.Metric.sum ∈ p.metrics <;>
    by_cases c3 : Engine.Metric.privacyIdCount ∈ p.metrics <;> simp [asked, c1, c2, c3]

theorem view_number {sigma : ℝ → ℝ → ℝ → ℝ} {p : Engine.Params} {part : Part} {k : Kind} (hk : kindOf part = some k) (sp : Spec) :
    ∀ v, view sigma p part = v → ∀ y ∈ v.numbers, y.spec ∈ part.specs ∧ y.mech = additive sigma (Created.sens ⟨k, p, sp⟩) := by
  intro v hv y hy
  cases part <;> simp only [kindOf, reduceCtorEq, Option.some.injEq] at hk <;> subst hk <;> simp only [view] at hv
  · subst hv; rw [List.mem_singleton.mp hy]; exact ⟨by simp [Part.specs], rfl⟩
  · split at hv <;> · subst hv; rw [List.mem_singleton.mp hy]; exact ⟨by simp [Part.specs], rfl⟩
  · subst hv; rw [List.mem_singleton.mp hy]; exact ⟨by simp [Part.specs], rfl⟩

theorem disjoint_of_nodup_flatMap {A B : Type} {f : A → List B} : ∀ {l : List A}, (l.flatMap f).Nodup → ∀ a ∈ l, ∀ b ∈ l, a ≠ b →
    ∀ x ∈ f a, x ∉ f b := by
  intro l
  induction l with
  | nil => intro _ a ha; simp at ha
  | cons c l ih =>
    intro h a ha b hb hab x hx hx'
    rw [List.flatMap_cons, List.nodup_append] at h
    rcases List.mem_cons.mp ha with ha' | ha' <;> rcases List.mem_cons.mp hb with hb' | hb'
    · exact hab (ha'.trans hb'.symm)
    · subst ha'; exact h.2.2 x hx x (List.mem_flatMap.mpr ⟨b, hb', hx'⟩) rfl
    · subst hb'; exact h.2.2 x hx' x (List.mem_flatMap.mpr ⟨a, ha', hx⟩) rfl
    · exact ih h.2.1 a ha' b hb' hab x hx hx'

/-- **C65** (noise).  Analysis of one configuration `p` against a pipeline with one call of `aggregate` with the same parameters
and the same budget `(e, d)`.  The analysis has a combiner for every combiner of the engine and for no other metric, and the
standard deviation of the noise which it reports is that of the mechanism with which the engine releases the metric, for any data
and any execution.  If partitions are private, the budget weight has to be 1. -/
theorem C65_noise_is_that_of_the_engine (fmt : ℚ → String) (sigma : ℝ → ℝ → ℝ → ℝ) {p : Engine.Params} {pub : Option (List K)}
    (key : R → K) (value : R → ℚ) (hc : Comparable p pub) {e d : ℚ} {s0} (h0 : Budget.init e d none none = .ok s0)
    (hd : p.noiseKind = .gaussian ∨ pub = none → 0 < d) :
    ∃ created, createConfiguration s0 (asked pub.isSome p.metrics p [(p.minSum, p.maxSum)]) = .ok created ∧
    ∃ b ops, planCalls fmt [] [Call.aggregate p pub key value] = .ok ([b], ops) ∧
      (∀ part ∈ b.parts, ∃ x ∈ created, kindOf part = some x.kind ∧
        ∀ (env : ℕ → Env K) (pid : R → P) (data : List R) (L : List (Candidate K)),
          evalCalls sigma (specOf (Budget.step (Budget.run s0 ops).1 .compute).1) env pid data 0 [Call.aggregate p pub key value] [b]
            = .ok [L] →
          ∀ c ∈ L, ∀ n ∈ c.numbers, n.spec ∈ part.specs → x.std sigma = .ok n.mech.std) ∧
      (∀ x ∈ created, x.kind = .selection ∨ ∃ part ∈ b.parts, kindOf part = some x.kind) := by
  have hcre := C65_configuration_budget h0 (asked pub.isSome p.metrics p [(p.minSum, p.maxSum)]) (by
    intro h x hx _ hg
    rw [asked_params p _ x hx] at hg
    have := hd (.inl hg)
    rw [h] at this
    exact lt_irrefl _ this)
  obtain ⟨b, ops, hp, ⟨rs, hcc⟩, hsel, hparts, -⟩ := engine_specs (fmt := fmt) (key := key) (value := value) hc h0 hd
  obtain ⟨g1, g2, g3, g4, -⟩ := engine_parts hc.metrics hc.thresholding hcc
  refine ⟨_, hcre, b, ops, hp, fun part hpart => ?_, fun x hx => ?_⟩
  · obtain ⟨k, hk, hkm⟩ := g1 part hpart
    refine ⟨⟨k, p, equalShare e d (asked pub.isSome p.metrics p [(p.minSum, p.maxSum)]) (k, p)⟩, ?_, hk, ?_⟩
    · refine List.mem_map.mpr ⟨(k, p), ?_, rfl⟩
      rw [asked_kinds]
      rcases hkm with ⟨rfl, h⟩ | ⟨rfl, h⟩ | ⟨rfl, h⟩ <;> simp [h]
    · intro env pid data L hL c hcL n hn hns
      obtain ⟨a, -, ha⟩ := candidate_of (evalCalls_single hL) c hcL
      obtain ⟨part', hp', y, hy, hys, hym⟩ := number_of_part sigma _ p c.key b.parts a.2 _ ha n hn
      -- the number belongs to this combiner
      have hpp : part' = part := by
        have hy' : y.spec ∈ part'.specs := by
          obtain ⟨k', hk', -⟩ := g1 part' hp'
          exact (view_number hk' ⟨.generic, none, none, none⟩ _ rfl y hy).1
        rw [hys] at hy'
        obtain ⟨new, -, -, hsn, -⟩ := Engine.C21_each_budget_is_used_once fmt p [] b.parts (by rw [hcc])
        have hnd : (b.parts.flatMap Part.specs).Nodup := by rw [hsn]; exact List.nodup_range'
        by_contra hne
        exact disjoint_of_nodup_flatMap hnd part' hp' part hpart hne _ hy' hns
      subst hpp
      have hspec := hparts part' hp' k hk n.spec hns
      rw [hspec] at hym
      have hadd := (view_number hk (equalShare e d (asked pub.isSome p.metrics p [(p.minSum, p.maxSum)]) (k, p)) _ rfl y hy).2
      rw [hadd] at hym
      unfold Created.std
      rw [hym]
  · obtain ⟨z, hz, rfl⟩ := List.mem_map.mp hx
    have hzp := asked_params p _ z hz
    rw [show z = (z.1, p) from Prod.ext rfl hzp, asked_kinds] at hz
    rcases hz with ⟨h, -⟩ | ⟨h, h'⟩ | ⟨h, h'⟩ | ⟨h, h'⟩
    · exact .inl h
    · right; rw [show (Created.kind ⟨z.1, z.2, _⟩) = _ from h]; exact g3 h'
    · right; rw [show (Created.kind ⟨z.1, z.2, _⟩) = _ from h]; exact g2 h'
    · right; rw [show (Created.kind ⟨z.1, z.2, _⟩) = _ from h]; exact g4 h'

/-- **C65** (partition selection).  As before, for partition selection: the analysis asks PyDP for the probability of keeping a
partition with the strategy, epsilon, delta, number of partitions and pre-threshold with which the engine selects partitions; with
public partitions neither selects. -/
theorem C65_selection_is_that_of_the_engine (fmt : ℚ → String) (sigma : ℝ → ℝ → ℝ → ℝ) {p : Engine.Params}
    {pub : Option (List K)} (key : R → K) (value : R → ℚ) (hc : Comparable p pub) {e d : ℚ} {s0}
    (h0 : Budget.init e d none none = .ok s0) (hd : p.noiseKind = .gaussian ∨ pub = none → 0 < d) :
    ∃ created, createConfiguration s0 (asked pub.isSome p.metrics p [(p.minSum, p.maxSum)]) = .ok created ∧
    ∃ b ops, planCalls fmt [] [Call.aggregate p pub key value] = .ok ([b], ops) ∧
      ∀ (env : ℕ → Env K) (pid : R → P) (data : List R) (L : List (Candidate K)),
        evalCalls sigma (specOf (Budget.step (Budget.run s0 ops).1 .compute).1) env pid data 0 [Call.aggregate p pub key value] [b]
          = .ok [L] →
        ∀ c ∈ L, (pub = none → ∃ x ∈ created, x.kind = .selection ∧ ∃ a n, x.selectionArgs = .ok a ∧
            c.gate = .select a.strategy a.eps a.delta a.l0 a.preThreshold n) ∧
          (pub ≠ none → c.gate = .always ∧ ∀ x ∈ created, x.kind ≠ .selection) := by
  have hcre := C65_configuration_budget h0 (asked pub.isSome p.metrics p [(p.minSum, p.maxSum)]) (by
    intro h x hx _ hg
    rw [asked_params p _ x hx] at hg
    have := hd (.inl hg)
    rw [h] at this
    exact lt_irrefl _ this)
  obtain ⟨b, ops, hp, ⟨rs, hcc⟩, hsel, -, hspec⟩ := engine_specs (fmt := fmt) (key := key) (value := value) hc h0 hd
  refine ⟨_, hcre, b, ops, hp, fun env pid data L hL c hcL => ?_⟩
  obtain ⟨a, ha, -⟩ := candidate_of (evalCalls_single hL) c hcL
  unfold EndToEnd.gateOf at ha
  constructor
  · intro hpub
    subst hpub
    obtain ⟨i, hi⟩ := Option.isSome_iff_exists.mp hsel
    rw [hi] at ha
    dsimp only at ha
    have hs := hspec i hi
    cases h1 : Engine.maxRowsPerId p with
    | error e => simp [h1] at ha
    | ok m =>
      cases h2 : natArg p.maxPartitions with
      | error e => simp [h1, h2] at ha
      | ok l0 =>
        simp only [h1, h2, EndToEnd.selectGate, hs, equalShare, computed, Except.ok.injEq] at ha
        refine ⟨⟨.selection, p, equalShare e d (asked false p.metrics p [(p.minSum, p.maxSum)]) (.selection, p)⟩, ?_, rfl, ?_⟩
        · exact List.mem_map.mpr ⟨(.selection, p), by rw [asked_kinds]; simp, rfl⟩
        · refine ⟨⟨p.strategy, _, _, l0, p.preThreshold⟩, _, ?_, ha.symm⟩
          simp [Created.selectionArgs, equalShare, computed, h2, failing, bind, Except.bind, pure, Except.pure]
  · intro hpub
    obtain ⟨ps, rfl⟩ := Option.ne_none_iff_exists'.mp hpub
    have hn : b.selection = none := by simpa using hsel
    rw [hn] at ha
    simp only [hc.thresholding] at ha
    refine ⟨by simpa using ha.symm, fun x hx hk => ?_⟩
    obtain ⟨z, hz, rfl⟩ := List.mem_map.mp hx
    have hzp := asked_params p _ z hz
    rw [show z = (z.1, p) from Prod.ext rfl hzp, asked_kinds] at hz
    have hk : z.1 = .selection := hk
    simp [hk] at hz

/-- **C65** (finding).  The analysis ignores the budget weight.  A pipeline whose only call computes COUNT for private partitions:
the analysis gives COUNT half of epsilon, the engine `w / (w + 1)` of it, where `w` is the budget weight; so the noise is
predicted correctly only if the weight is 1. -/
theorem C65_weight_is_ignored (fmt : ℚ → String) (p : Engine.Params) (key : R → K) (value : R → ℚ)
    (hs : SupportedAggregate p (none : Option (List K))) (hm : p.metrics = [.count]) (ht : p.postThresholding = false)
    {e d : ℚ} {s0} (h0 : Budget.init e d none none = .ok s0) (hd : 0 < d) :
    ∃ a x, createConfiguration s0 (asked false p.metrics p [(p.minSum, p.maxSum)]) = .ok [a, x] ∧ x.kind = .count ∧
      x.spec.eps = some ((e / 2 : ℚ) : ℝ) ∧
    ∃ bs ops q, planCalls fmt [] [Call.aggregate p none key value] = .ok (bs, ops) ∧ bs = [⟨[.count 0], some 1⟩] ∧
      Budget.seesEps (Budget.step (Budget.run s0 ops).1 .compute).1 0 q ∧ (q = e / 2 ↔ p.budgetWeight = 1) := by
  have hcre := C65_configuration_budget h0 (asked false p.metrics p [(p.minSum, p.maxSum)]) (fun h => absurd h hd.ne')
  have hl : asked false p.metrics p [(p.minSum, p.maxSum)] = [(.selection, p), (.count, p)] := by simp [asked, hm]
  rw [hl] at hcre ⊢
  refine ⟨_, _, hcre, rfl, by simp [equalShare], ?_⟩
  obtain ⟨bs, ops, hp, hb, h1, -⟩ := EndToEnd.C63_weight_shifts_selection fmt p key value hs hm ht h0 hd
  refine ⟨bs, ops, _, hp, hb, h1, ?_⟩
  have hw := hs.weight
  obtain ⟨he, -⟩ := Budget.init_facts h0
  have he' : e ≠ 0 := he.ne'
  rw [div_eq_mul_one_div e 2, mul_right_inj' he', div_eq_div_iff (by linarith) (by norm_num)]
  constructor <;> intro h <;> linarith

/-! ### Non-vacuity -/

/-- COUNT and SUM (of the clipped sum of a user in a partition) with Laplace noise: private and public partitions. -/
example : Comparable { metrics := [.sum, .count], maxPartitions := some 2, maxPerPartition := some 3, minSum := some 0, maxSum := some 5 }
    (none : Option (List ℕ)) :=
  { supported :=
      { bounds := .inr ⟨2, 3, by norm_num, by norm_num, rfl, rfl, rfl⟩, weight := by norm_num, metrics := by simp
        ids := by simp, sum := fun _ _ _ => by simp [EndToEnd.SumOk], mean := by simp, variance := by simp
        thresholding := by simp, hidden := by simp }
    metrics := by simp, nonempty := by simp, thresholding := rfl, weight := fun _ => rfl }

example : Comparable { metrics := [.privacyIdCount, .count], maxPartitions := some 2, maxPerPartition := some 3, noiseKind := .gaussian, budgetWeight := 7 }
    (some [1, 2]) :=
  { supported :=
      { bounds := .inr ⟨2, 3, by norm_num, by norm_num, rfl, rfl, rfl⟩, weight := by norm_num, metrics := by simp
        ids := by simp, sum := by simp, mean := by simp, variance := by simp
        thresholding := by simp, hidden := by simp }
    metrics := by simp, nonempty := by simp, thresholding := rfl, weight := by simp }

end PDP.Analysis
