import Verif.EndToEnd.Props

/-!
# Supported pipelines run (C60)
-/

namespace PDP.EndToEnd

open PDP PDP.Engine
open PDP.Budget (State Op MechType)

variable {R P K : Type}

/-- The announcements made to the accountant fit the pipeline: none, the number of aggregations (then all weights are 1), or
the weights of the aggregations. -/
def Announced (num : Option ℤ) (ws : Option (List ℚ)) (qs : List (Query R K)) : Prop :=
  (∀ n, num = some n → n = qs.length ∧ ∀ q ∈ qs, q.params.budgetWeight = 1) ∧
  (∀ l, ws = some l → l = qs.map fun q => q.params.budgetWeight)

theorem run_requests (l : List Request) (h : ∀ r ∈ l, toMechType r.mechanism = .laplace) (s : State)
    (hs : s.finalized = false) :
    let s' := (Budget.run s (l.map fun r => .request (toMechType r.mechanism) 1 r.weight 1 none)).1
    s'.finalized = false ∧ s'.stack.length = s.stack.length ∧ s'.actualWeights = s.actualWeights ∧
      s'.expectedNum = s.expectedNum ∧ s'.expectedWeights = s.expectedWeights := by
  induction l generalizing s with
  | nil => exact ⟨hs, rfl, rfl, rfl, rfl⟩
  | cons r l ih =>
    have hstep : Budget.step s (.request (toMechType r.mechanism) 1 r.weight 1 none)
        = (Budget.register s ⟨.laplace, 1, r.weight, 1, none, none⟩, .spec s.mechs.length) := by
      rw [h r (by simp)]
      simp [Budget.step, Budget.requestBudget, hs]
    have := ih (fun r hr => h r (by simp [hr])) (Budget.register s ⟨.laplace, 1, r.weight, 1, none, none⟩) hs
    simp only [List.map_cons, Budget.run, hstep]
    obtain ⟨a, b, c, d, e⟩ := this
    exact ⟨a, by rw [b]; simp [Budget.register], c, d, e⟩

theorem run_queryOps (p : Params) (l : List Request) (h : ∀ r ∈ l, toMechType r.mechanism = .laplace) (s : State)
    (hs : s.finalized = false) :
    let s' := (Budget.run s (queryOps p l)).1
    s'.finalized = false ∧ s'.stack.length = s.stack.length ∧ s'.actualWeights = s.actualWeights ++ [p.budgetWeight] ∧
      s'.expectedNum = s.expectedNum ∧ s'.expectedWeights = s.expectedWeights := by
  simp only [queryOps, callOps, List.cons_append, Budget.run]
  rw [Budget.run_append]
  rw [show (Budget.step s (.enter p.budgetWeight)).1 = Budget.enterScope s p.budgetWeight from rfl]
  obtain ⟨a1, a2, a3, a4, a5⟩ := run_requests l h (Budget.enterScope s p.budgetWeight) hs
  generalize (Budget.run (Budget.enterScope s p.budgetWeight)
    (l.map fun r => .request (toMechType r.mechanism) 1 r.weight 1 none)).1 = t at a1 a2 a3 a4 a5 ⊢
  dsimp only
  simp only [Budget.run]
  have hagg : ∀ w, (Budget.step t (.aggregation w)).1 = { t with actualWeights := t.actualWeights ++ [w] } := by
    intro w
    simp only [Budget.step, Budget.computeBudgetForAggregation]
    cases Budget.truthyNum t.expectedNum with
    | some n => rfl
    | none =>
      cases Budget.truthyList t.expectedWeights with
      | none => rfl
      | some ws =>
        dsimp only
        by_cases h : ws.sum = 0
        · rw [if_pos h]
        · rw [if_neg h]
  rw [hagg]
  have hexit : ∀ t : State, t.stack ≠ [] → ∃ ms, (Budget.step t .exit).1 = { t with stack := t.stack.tail, mechs := ms } := by
    intro t ht
    simp only [Budget.step, Budget.exitScope]
    rcases hst : t.stack with _ | ⟨sc, rest⟩
    · exact absurd hst ht
    · dsimp only
      by_cases h1 : sc.mechs = []
      · rw [if_pos h1]; exact ⟨t.mechs, rfl⟩
      · rw [if_neg h1]
        by_cases h2 : (sc.mechs.map (Budget.weightAt t.mechs)).sum = 0
        · rw [if_pos h2]; exact ⟨t.mechs, rfl⟩
        · rw [if_neg h2]; exact ⟨_, rfl⟩
  have hl : t.stack.length = s.stack.length + 1 := by rw [a2]; simp [Budget.enterScope]
  obtain ⟨ms, hms⟩ := hexit { t with actualWeights := t.actualWeights ++ [p.budgetWeight] } (by
    intro h
    have : t.stack = [] := h
    rw [this] at hl; simp at hl)
  rw [hms]
  refine ⟨a1, ?_, ?_, a4, a5⟩
  · simp [hl]
  · dsimp only
    rw [a3]; rfl

theorem expectedNames_nodup_supported (fmt : ℚ → String) (p : Params) (hs : Supported p) : (expectedNames fmt p).Nodup := by
  have hq : p.metrics.filterMap Metric.percentile? = [] := by
    rw [List.filterMap_eq_nil_iff]
    intro m hm
    rcases hs.metrics m hm with rfl | rfl | rfl | rfl | rfl <;> rfl
  unfold expectedNames
  rw [hq, List.map_nil, List.append_nil]
  have key : ∀ (c : Prop) [Decidable c] (s : String), (if c then [s] else []).Sublist [s] := by
    intro c _ s; split <;> simp
  have h := (((((key (Metric.variance ∈ p.metrics) "variance").append (key (Metric.mean ∈ p.metrics) "mean")).append
    (key (Metric.count ∈ p.metrics) "count")).append (key (Metric.sum ∈ p.metrics) "sum")).append
    (key (Metric.privacyIdCount ∈ p.metrics) "privacy_id_count")).append
    (key (Metric.vectorSum ∈ p.metrics) "vector_sum")
  exact List.Nodup.sublist h (by decide)

/-- **C60** (pipelines run).  For supported queries the driver raises no exception, and `compute_budgets` succeeds, whatever
fitting announcements were made. -/
theorem C60_supported_pipeline_runs (fmt : ℚ → String) (qs : List (Query R K)) (hs : ∀ q ∈ qs, Supported q.params)
    {e d : ℚ} {num ws s0} (h0 : Budget.init e d num ws = .ok s0) (ha : Announced num ws qs) :
    ∃ ps ops, plan fmt [] qs = .ok (ps, ops) ∧ (Budget.step (Budget.run s0 ops).1 .compute).2 = .unit := by
  have key : ∀ (qs : List (Query R K)) (rs : List Request), (∀ q ∈ qs, Supported q.params) →
      ∃ ps ops, plan fmt rs qs = .ok (ps, ops) ∧ ∀ s : State, s.finalized = false →
        let s' := (Budget.run s ops).1
        s'.finalized = false ∧ s'.stack.length = s.stack.length ∧
          s'.actualWeights = s.actualWeights ++ qs.map (fun q => q.params.budgetWeight) ∧
          s'.expectedNum = s.expectedNum ∧ s'.expectedWeights = s.expectedWeights := by
    intro qs
    induction qs with
    | nil =>
      intro rs _
      exact ⟨[], [], rfl, fun s hs => ⟨hs, rfl, by simp [Budget.run], rfl, rfl⟩⟩
    | cons q qs ih =>
      intro rs hs
      have hq := hs q (by simp)
      obtain ⟨new, parts, h1, h2, h3, h4, h5, h6⟩ := createCompound_spec fmt q.params rs
      have hnd : (parts.flatMap (Part.names fmt)).Nodup := by
        rw [h2.nodup_iff]
        exact expectedNames_nodup_supported fmt q.params hq
      rw [if_pos hnd] at h1
      obtain ⟨ps, ops, g1, g2⟩ := ih (rs ++ new) (fun q hq => hs q (by simp [hq]))
      refine ⟨parts :: ps, queryOps q.params new ++ ops, ?_, ?_⟩
      · simp only [plan, h1, g1, List.drop_left]
      · intro s hsf
        have hnew : ∀ r ∈ new, toMechType r.mechanism = .laplace := by
          intro r hr
          obtain ⟨w, h | h⟩ := h6 r hr
          · rw [h, hq.laplace]; rfl
          · rw [hq.noThresholding] at h; simp at h
        obtain ⟨b1, b2, b3, b4, b5⟩ := run_queryOps q.params new hnew s hsf
        obtain ⟨c1, c2, c3, c4, c5⟩ := g2 _ b1
        rw [Budget.run_append]
        refine ⟨c1, by rw [c2, b2], ?_, by rw [c4, b4], by rw [c5, b5]⟩
        rw [c3, b3]; simp
  obtain ⟨ps, ops, h1, h2⟩ := key qs [] hs
  refine ⟨ps, ops, h1, ?_⟩
  have hs0 : s0.finalized = false ∧ s0.stack = [] ∧ s0.actualWeights = [] ∧ s0.expectedNum = num ∧
      s0.expectedWeights = ws := by
    unfold Budget.init at h0
    split_ifs at h0
    cases h0
    exact ⟨rfl, rfl, rfl, rfl, rfl⟩
  obtain ⟨f1, f2, f3, f4, f5⟩ := hs0
  obtain ⟨g1, g2, g3, g4, g5⟩ := h2 s0 f1
  generalize (Budget.run s0 ops).1 = s at g1 g2 g3 g4 g5 ⊢
  rw [f2, List.length_nil, List.length_eq_zero_iff] at g2
  rw [f3, List.nil_append] at g3
  rw [f4] at g4
  rw [f5] at g5
  have hck : Budget.checkRestrictions s = true := by
    unfold Budget.checkRestrictions
    rw [Bool.and_eq_true]
    constructor
    · rw [g4]
      rcases num with _ | n
      · rfl
      · obtain ⟨hn, hw⟩ := ha.1 n rfl
        unfold Budget.truthyNum
        by_cases h : n = 0
        · simp [h]
        · simp only [h, if_false]
          rw [g3]
          simp [hn]
          exact hw
    · rw [g5]
      rcases ws with _ | l
      · rfl
      · have := ha.2 l rfl
        rcases l with _ | ⟨x, l⟩
        · rfl
        · simp only [Budget.truthyList]
          rw [g3, ← this]
          simp only [beq_self_eq_true, Bool.true_and, List.all_eq_true]
          have hz : ∀ (l : List ℚ), ∀ p ∈ l.zip l, (p.1 == p.2) = true := by
            intro l
            induction l with
            | nil => simp
            | cons y l ih => simpa using ih
          exact hz _
  simp only [Budget.step, Budget.computeBudgets, hck, g1, g2]
  by_cases h : s.mechs = []
  · simp [h]
  · simp [h]

end PDP.EndToEnd
