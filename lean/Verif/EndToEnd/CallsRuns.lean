import Verif.EndToEnd.CallsProps

/-!
# Supported pipelines run (C62)
-/

set_option linter.unusedSectionVars false

namespace PDP.EndToEnd

open PDP PDP.Engine
open PDP.Budget (State Op MechType Out)

variable {R P K : Type} [DecidableEq P] [DecidableEq K]

/-- The announcements made to the accountant fit the pipeline: none, the number of calls (then all weights are 1), or the
weights of the calls. -/
def AnnouncedCalls (num : Option ℤ) (ws : Option (List ℚ)) (cs : List (Call R K)) : Prop :=
  (∀ n, num = some n → n = cs.length ∧ ∀ c ∈ cs, c.weight = 1) ∧ (∀ l, ws = some l → l = cs.map Call.weight)

/-- A call on the accountant that raises no exception. -/
def Out.Fine : Out → Prop
  | .raised _ => False
  | _ => True

/-- The mechanism registered for a request. -/
def mechOf (r : Request) : Budget.Mech := ⟨toMechType r.mechanism, 1, r.weight, 1, none, none⟩

theorem run_reqs (l : List Request) : ∀ (s : State), s.finalized = false →
    (∀ r ∈ l, r.mechanism = .gaussian → s.totalDelta ≠ 0) → ∀ (w : ℚ) (idx : List ℕ), s.stack = [⟨w, idx⟩] →
    (Budget.run s (l.map fun r => .request (toMechType r.mechanism) 1 r.weight 1 none)).1
        = { s with mechs := s.mechs ++ l.map mechOf, stack := [⟨w, idx ++ List.range' s.mechs.length l.length⟩] } ∧
      ∀ o ∈ (Budget.run s (l.map fun r => .request (toMechType r.mechanism) 1 r.weight 1 none)).2, Out.Fine o := by
  induction l with
  | nil =>
    intro s _ _ w idx hst
    simp [Budget.run, ← hst]
  | cons r l ih =>
    intro s hs hg w idx hst
    have hstep := step_request hs (toMechType r.mechanism) 1 r.weight (fun ht => hg r (by simp) (by
      cases hm : r.mechanism <;> rw [hm] at ht <;> simp [toMechType] at ht ⊢))
    obtain ⟨h1, h2⟩ := ih (Budget.register s (mechOf r)) hs (fun r' hr' => hg r' (by simp [hr'])) w
      (idx ++ [s.mechs.length]) (by simp [Budget.register, hst])
    simp only [List.map_cons, Budget.run, hstep]
    constructor
    · refine h1.trans ?_
      simp only [Budget.register, List.length_append, List.length_cons, List.append_assoc,
        List.nil_append, List.length_nil, Nat.zero_add, List.cons_append, List.range'_succ]
    · intro o ho
      rcases List.mem_cons.mp ho with rfl | ho
      · trivial
      · exact h2 o ho

/-- One call of the engine on an accountant outside of all scopes. -/
theorem run_callOps {w : ℚ} {l : List Request} (hl : ∀ r ∈ l, 0 < r.weight) (s : State) (hs : s.finalized = false)
    (hst : s.stack = []) (hg : ∀ r ∈ l, r.mechanism = .gaussian → s.totalDelta ≠ 0)
    (hw : ∀ ws, Budget.truthyList s.expectedWeights = some ws → ws.sum ≠ 0) :
    let s' := (Budget.run s (callOps w l)).1
    (s'.finalized = false ∧ s'.stack = [] ∧ s'.actualWeights = s.actualWeights ++ [w] ∧
      s'.expectedNum = s.expectedNum ∧ s'.expectedWeights = s.expectedWeights ∧ s'.totalDelta = s.totalDelta) ∧
    ∀ o ∈ (Budget.run s (callOps w l)).2, Out.Fine o := by
  simp only [callOps, List.cons_append, Budget.run]
  rw [Budget.run_append]
  rw [show (Budget.step s (.enter w)) = (Budget.enterScope s w, .unit) from rfl]
  obtain ⟨h1, h2⟩ := run_reqs l (Budget.enterScope s w) hs hg w [] (by simp [Budget.enterScope, hst])
  rw [h1]
  generalize (Budget.run (Budget.enterScope s w)
    (l.map fun r => .request (toMechType r.mechanism) 1 r.weight 1 none)).2 = outs at h2 ⊢
  have hagg : ∃ o, Out.Fine o ∧ ∀ t : State, t.expectedNum = s.expectedNum → t.expectedWeights = s.expectedWeights →
      t.totalEps = s.totalEps → t.totalDelta = s.totalDelta →
      Budget.step t (.aggregation w) = ({ t with actualWeights := t.actualWeights ++ [w] }, o) := by
    simp only [Budget.step, Budget.computeBudgetForAggregation]
    cases hn : Budget.truthyNum s.expectedNum with
    | some n =>
      refine ⟨.budget (some (s.totalEps / n, s.totalDelta / n)), trivial, ?_⟩
      intro t a1 a2 a3 a4
      simp only [a1, a3, a4, hn]
    | none =>
      cases hws : Budget.truthyList s.expectedWeights with
      | none =>
        refine ⟨.budget none, trivial, ?_⟩
        intro t a1 a2 a3 a4
        simp only [a1, a2, hn, hws]
      | some ws =>
        refine ⟨.budget (some (s.totalEps * (w / ws.sum), s.totalDelta * (w / ws.sum))), trivial, ?_⟩
        intro t a1 a2 a3 a4
        simp only [a1, a2, a3, a4, hn, hws, hw ws hws, if_false]
  obtain ⟨o, ho, hagg⟩ := hagg
  simp only [Budget.run]
  dsimp only [Budget.enterScope]
  rw [hagg { s with mechs := s.mechs ++ l.map mechOf, stack := [⟨w, [] ++ List.range' s.mechs.length l.length⟩] }
    rfl rfl rfl rfl]
  -- leaving the scope
  have hsum : ∀ i ∈ List.range' s.mechs.length l.length, 0 < Budget.weightAt (s.mechs ++ l.map mechOf) i := by
    intro i hi
    simp only [List.mem_range'_1] at hi
    unfold Budget.weightAt
    rw [List.getElem?_append_right hi.1, List.getElem?_map]
    have hlt : i - s.mechs.length < l.length := by omega
    rw [List.getElem?_eq_getElem hlt]
    exact hl _ (List.getElem_mem hlt)
  have hexit : ∀ t : State, t.stack = [⟨w, [] ++ List.range' s.mechs.length l.length⟩] → t.mechs = s.mechs ++ l.map mechOf →
      ∃ ms, Budget.step t .exit = ({ t with stack := [], mechs := ms }, .unit) := by
    intro t ht hm
    simp only [Budget.step, Budget.exitScope, ht, List.nil_append]
    by_cases h : List.range' s.mechs.length l.length = []
    · simp only [h, if_true]; exact ⟨t.mechs, rfl⟩
    · obtain ⟨i, hi⟩ := List.exists_mem_of_ne_nil _ h
      have h2 : ((List.range' s.mechs.length l.length).map (Budget.weightAt t.mechs)).sum ≠ 0 := by
        rw [hm]
        exact (Budget.sum_pos_of_mem _ _ (fun a ha => (hsum a ha).le) hi (hsum i hi)).ne'
      simp only [h, if_false, h2]
      exact ⟨_, rfl⟩
  obtain ⟨ms, hms⟩ := hexit { s with mechs := s.mechs ++ l.map mechOf,
                                     stack := [⟨w, [] ++ List.range' s.mechs.length l.length⟩],
                                     actualWeights := s.actualWeights ++ [w] } rfl rfl
  rw [hms]
  refine ⟨⟨hs, rfl, rfl, rfl, rfl, rfl⟩, ?_⟩
  intro x hx
  simp only [List.mem_cons, List.mem_append, List.not_mem_nil, or_false] at hx
  rcases hx with rfl | hx | rfl | rfl
  · trivial
  · exact h2 x hx
  · exact ho
  · trivial

theorem expectedNames_nodup_metrics (fmt : ℚ → String) (p : Params)
    (hm : ∀ m ∈ p.metrics, m = .count ∨ m = .privacyIdCount ∨ m = .sum ∨ m = .mean ∨ m = .variance) :
    (expectedNames fmt p).Nodup := by
  have hq : p.metrics.filterMap Metric.percentile? = [] := by
    rw [List.filterMap_eq_nil_iff]
    intro m h
    rcases hm m h with rfl | rfl | rfl | rfl | rfl <;> rfl
  unfold expectedNames
  rw [hq, List.map_nil, List.append_nil]
  have key : ∀ (c : Prop) [Decidable c] (s : String), (if c then [s] else []).Sublist [s] := by
    intro c _ s; split <;> simp
  have h := (((((key (Metric.variance ∈ p.metrics) "variance").append (key (Metric.mean ∈ p.metrics) "mean")).append
    (key (Metric.count ∈ p.metrics) "count")).append (key (Metric.sum ∈ p.metrics) "sum")).append
    (key (Metric.privacyIdCount ∈ p.metrics) "privacy_id_count")).append
    (key (Metric.vectorSum ∈ p.metrics) "vector_sum")
  exact List.Nodup.sublist h (by decide)

theorem build_ok (fmt : ℚ → String) (rs : List Request) {c : Call R K} (hc : c.Supported) :
    ∃ b rs', build fmt rs c = (.ok b, rs') := by
  cases c with
  | select p key => exact ⟨_, _, rfl⟩
  | aggregate p pub key value =>
    obtain ⟨new, parts, h1, h2, -⟩ := createCompound_spec fmt p rs
    have hnd : (parts.flatMap (Part.names fmt)).Nodup := by
      rw [h2.nodup_iff]
      exact expectedNames_nodup_metrics fmt p (SupportedAggregate.metrics hc)
    rw [if_pos hnd] at h1
    simp only [build, h1]
    split
    · exact ⟨_, _, rfl⟩
    · exact ⟨_, _, rfl⟩

/-- If the calls on the accountant announce the given weights, nothing is raised and `compute_budgets` succeeds. -/
theorem announced_run {weights : List ℚ} (hpos : ∀ w ∈ weights, 0 < w) {e d : ℚ} {num : Option ℤ} {ws : Option (List ℚ)} {s0 : State}
    (h0 : Budget.init e d num ws = .ok s0)
    (ha : (∀ n, num = some n → n = weights.length ∧ ∀ w ∈ weights, w = 1) ∧ ∀ l, ws = some l → l = weights) {ops : List Op}
    (h : ∀ s : State, s.finalized = false → s.stack = [] → s.totalDelta = d →
      (∀ ws, Budget.truthyList s.expectedWeights = some ws → ws.sum ≠ 0) →
      let s' := (Budget.run s ops).1
      (s'.finalized = false ∧ s'.stack = [] ∧ s'.actualWeights = s.actualWeights ++ weights ∧
        s'.expectedNum = s.expectedNum ∧ s'.expectedWeights = s.expectedWeights) ∧
      ∀ o ∈ (Budget.run s ops).2, Out.Fine o) :
    (∀ err, Out.raised err ∉ (Budget.run s0 ops).2) ∧ (Budget.step (Budget.run s0 ops).1 .compute).2 = .unit := by
  have hs0 : s0.finalized = false ∧ s0.stack = [] ∧ s0.actualWeights = [] ∧ s0.expectedNum = num ∧
      s0.expectedWeights = ws ∧ s0.totalDelta = d := by
    unfold Budget.init at h0
    split_ifs at h0
    cases h0
    exact ⟨rfl, rfl, rfl, rfl, rfl, rfl⟩
  obtain ⟨f1, f2, f3, f4, f5, f6⟩ := hs0
  have hsum : ∀ l, Budget.truthyList s0.expectedWeights = some l → l.sum ≠ 0 := by
    rw [f5]
    intro l hl
    rcases ws with _ | l'
    · simp [Budget.truthyList] at hl
    · have hw := ha.2 l' rfl
      rcases l' with _ | ⟨x, l'⟩
      · simp [Budget.truthyList] at hl
      · simp only [Budget.truthyList, Option.some.injEq] at hl
        subst hl
        have hpos' : ∀ y ∈ x :: l', 0 < y := by
          rw [hw]
          exact hpos
        have := Budget.sum_pos_of_mem (x :: l') id (fun a ha => (hpos' a ha).le) (List.mem_cons_self ..) (hpos' x (by simp))
        rw [List.map_id] at this
        exact this.ne'
  obtain ⟨⟨g1, g2, g3, g4, g5⟩, g6⟩ := h s0 f1 f2 f6 hsum
  refine ⟨fun err herr => g6 _ herr, ?_⟩
  generalize (Budget.run s0 ops).1 = s at g1 g2 g3 g4 g5 ⊢
  rw [f3, List.nil_append] at g3
  rw [f4] at g4
  rw [f5] at g5
  have hck : Budget.checkRestrictions s = true := by
    unfold Budget.checkRestrictions
    rw [Bool.and_eq_true]
    constructor
    · rw [g4]
      rcases num with _ | n
      · rfl
      · obtain ⟨hn, hw⟩ := ha.1 n rfl
        unfold Budget.truthyNum
        by_cases h : n = 0
        · simp [h]
        · simp only [h, if_false]
          rw [g3]
          simp [hn]
          exact hw
    · rw [g5]
      rcases ws with _ | l
      · rfl
      · have := ha.2 l rfl
        rcases l with _ | ⟨x, l⟩
        · rfl
        · simp only [Budget.truthyList]
          rw [g3, ← this]
          simp only [beq_self_eq_true, Bool.true_and, List.all_eq_true]
          have hz : ∀ (l : List ℚ), ∀ p ∈ l.zip l, (p.1 == p.2) = true := by
            intro l
            induction l with
            | nil => simp
            | cons y l ih => simpa using ih
          exact hz _
  simp only [Budget.step, Budget.computeBudgets, hck, g1, g2]
  by_cases h : s.mechs = []
  · simp [h]
  · simp [h]

/-- **C62** (pipelines run).  For supported calls the driver raises no exception: neither the engine nor any call on the
accountant, and `compute_budgets` succeeds, whatever fitting announcements were made.  (By
`C62_pipeline_is_differentially_private`, the evaluation then raises no exception either.) -/
theorem C62_supported_pipeline_runs (fmt : ℚ → String) (cs : List (Call R K)) (hs : ∀ c ∈ cs, c.Supported) {e d : ℚ}
    {num ws s0} (h0 : Budget.init e d num ws = .ok s0) (hd : (∃ c ∈ cs, c.NeedsDelta) → 0 < d)
    (ha : AnnouncedCalls num ws cs) :
    ∃ bs ops, planCalls fmt [] cs = .ok (bs, ops) ∧ (∀ err, Out.raised err ∉ (Budget.run s0 ops).2) ∧
      (Budget.step (Budget.run s0 ops).1 .compute).2 = .unit := by
  have key : ∀ (cs : List (Call R K)) (rs : List Request), (∀ c ∈ cs, c.Supported) → ((∃ c ∈ cs, c.NeedsDelta) → 0 < d) →
      ∃ bs ops, planCalls fmt rs cs = .ok (bs, ops) ∧ ∀ s : State, s.finalized = false → s.stack = [] →
        s.totalDelta = d → (∀ ws, Budget.truthyList s.expectedWeights = some ws → ws.sum ≠ 0) →
        let s' := (Budget.run s ops).1
        (s'.finalized = false ∧ s'.stack = [] ∧ s'.actualWeights = s.actualWeights ++ cs.map Call.weight ∧
          s'.expectedNum = s.expectedNum ∧ s'.expectedWeights = s.expectedWeights) ∧
        ∀ o ∈ (Budget.run s ops).2, Out.Fine o := by
    intro cs
    induction cs with
    | nil =>
      intro rs _ _
      exact ⟨[], [], rfl, fun s hs hst _ _ => ⟨⟨hs, hst, by simp [Budget.run], rfl, rfl⟩, by simp [Budget.run]⟩⟩
    | cons c cs ih =>
      intro rs hs hd
      obtain ⟨b, rs', hb⟩ := build_ok fmt rs (hs c (by simp))
      obtain ⟨new, rfl, -, -, h4⟩ := build_requests (hs c (by simp)).any hb
      obtain ⟨bs, ops, g1, g2⟩ := ih (rs ++ new) (fun c hc => hs c (by simp [hc]))
        (fun ⟨c, hc, h⟩ => hd ⟨c, by simp [hc], h⟩)
      refine ⟨b :: bs, callOps c.weight new ++ ops, ?_, ?_⟩
      · simp only [planCalls, hb, g1, List.drop_left]
      · intro s hsf hst htd hws
        obtain ⟨⟨b1, b2, b3, b4, b5, b6⟩, b7⟩ := run_callOps (w := c.weight) (l := new) (fun r hr => (h4 r hr).1) s hsf hst
          (fun r hr hm => by
            rw [htd]
            exact (hd ⟨c, by simp, (h4 r hr).2 (by rw [hm]; simp)⟩).ne') hws
        obtain ⟨⟨c1, c2, c3, c4, c5⟩, c6⟩ := g2 _ b1 b2 (by rw [b6, htd]) (by rw [b5]; exact hws)
        rw [Budget.run_append]
        refine ⟨⟨c1, c2, ?_, by rw [c4, b4], by rw [c5, b5]⟩, ?_⟩
        · rw [c3, b3]; simp
        · intro o ho
          rcases List.mem_append.mp ho with ho | ho
          · exact b7 o ho
          · exact c6 o ho
  obtain ⟨bs, ops, h1, h2⟩ := key cs [] hs hd
  refine ⟨bs, ops, h1, announced_run (weights := cs.map Call.weight) ?_ h0 ⟨?_, ha.2⟩ h2⟩
  · intro w hw
    obtain ⟨c, hc, rfl⟩ := List.mem_map.mp hw
    exact (hs c hc).weight
  · intro n hn
    obtain ⟨h1, h2⟩ := ha.1 n hn
    refine ⟨by rw [List.length_map]; exact h1, fun w hw => ?_⟩
    obtain ⟨c, hc, rfl⟩ := List.mem_map.mp hw
    exact h2 c hc

end PDP.EndToEnd
