import Verif.EndToEnd.Mixed
import Verif.EndToEnd.CallsExample

/-!
# Pipelines with `aggregate`, `select_partitions` and `add_dp_noise` are differentially private (C73)
-/

set_option linter.unusedSectionVars false

namespace PDP.EndToEnd

open PDP PDP.Engine MeasureTheory
open PDP.Engine.Mechanism (Additive createAdditive)
open PDP.Engine.AddNoise (specOf)
open PDP.Budget (State Op MechType Out)
open PDP.Approx (Indist)

variable {R P K : Type} [DecidableEq P] [DecidableEq K]

/-! ### The plan -/

/-- The budgets of a step were requested with the mechanisms it uses. -/
def StepRequested (rs : List Request) : Step R K → BuiltStep → Prop
  | .call c, .call b => b.Requested c.kind rs
  | .noise p _, .noise i sens => (∃ w, rs[i]? = some ⟨p.kind.mechanism, w⟩) ∧
      mkSens (p.l0.map fun x : ℚ => (x : ℝ)) (p.linf.map fun x : ℚ => (x : ℝ)) none none = .ok sens
  | _, _ => False

theorem StepRequested.append {rs : List Request} {c : Step R K} {b : BuiltStep} (h : StepRequested rs c b) (rs' : List Request) :
    StepRequested (rs ++ rs') c b := by
  cases c with
  | call c =>
    cases b with
    | call b => exact Built.Requested.append h rs'
    | noise i s => exact h
  | noise p f =>
    cases b with
    | call b => exact h
    | noise i s =>
      obtain ⟨⟨w, hw⟩, h2⟩ := h
      exact ⟨⟨w, getElem?_prefix hw _⟩, h2⟩

theorem Step.Supported.weight {c : Step R K} (h : c.Supported) : 0 < c.weight := by
  cases c with
  | call c => exact Call.Supported.weight h
  | noise p f => exact h.2.2

theorem mechType_eq (k : NoiseKind) : AddNoise.mechType k = toMechType k.mechanism := by cases k <;> rfl

theorem planSteps_spec {fmt : ℚ → String} {cs : List (Step R K)} (hs : ∀ c ∈ cs, c.Supported) :
    ∀ {rs : List Request} {bs ops}, planSteps fmt rs cs = .ok (bs, ops) →
      (∀ op ∈ ops, PlainAny op) ∧
      ∃ new, ops.filterMap reqOf = new.map (fun r => (toMechType r.mechanism, (1 : ℤ))) ∧
        bs.flatMap BuiltStep.specs = List.range' rs.length new.length ∧
        List.Forall₂ (StepRequested (rs ++ new)) cs bs ∧
        ∀ r ∈ new, r.mechanism ≠ .laplace → ∃ c ∈ cs, c.NeedsDelta := by
  induction cs with
  | nil =>
    intro rs bs ops h
    simp only [planSteps, Except.ok.injEq, Prod.mk.injEq] at h
    obtain ⟨rfl, rfl⟩ := h
    exact ⟨by simp, [], by simp, by simp, by simp, by simp⟩
  | cons c cs ih =>
    intro rs bs ops h
    have hc := hs c (by simp)
    have fin : ∀ (new : List Request) (b : BuiltStep) (o : List Op) (bs' ops'), b.specs = List.range' rs.length new.length →
        StepRequested (rs ++ new) c b → (∀ r ∈ new, r.mechanism ≠ .laplace → c.NeedsDelta) → (∀ op ∈ o, PlainAny op) →
        o.filterMap reqOf = new.map (fun r => (toMechType r.mechanism, (1 : ℤ))) → planSteps fmt (rs ++ new) cs = .ok (bs', ops') →
        (∀ op ∈ o ++ ops', PlainAny op) ∧
        ∃ new, (o ++ ops').filterMap reqOf = new.map (fun r => (toMechType r.mechanism, (1 : ℤ))) ∧
          (b :: bs').flatMap BuiltStep.specs = List.range' rs.length new.length ∧
          List.Forall₂ (StepRequested (rs ++ new)) (c :: cs) (b :: bs') ∧
          ∀ r ∈ new, r.mechanism ≠ .laplace → ∃ x ∈ c :: cs, x.NeedsDelta := by
      intro new b o bs' ops' h2 h3 h4 k1 k2 hp
      obtain ⟨g1, new', g2, g3, g4, g5⟩ := ih (fun c hc => hs c (by simp [hc])) hp
      refine ⟨?_, new ++ new', ?_, ?_, ?_, ?_⟩
      · intro op hop
        rcases List.mem_append.mp hop with hop | hop
        · exact k1 op hop
        · exact g1 op hop
      · rw [List.filterMap_append, k2, g2, List.map_append]
      · rw [List.flatMap_cons, h2, g3, List.length_append, List.length_append, ← List.range'_append_1]
      · rw [← List.append_assoc]
        exact List.Forall₂.cons (h3.append _) g4
      · intro r hr hne
        rcases List.mem_append.mp hr with hr | hr
        · exact ⟨c, by simp, h4 r hr hne⟩
        · obtain ⟨c', hc', h⟩ := g5 r hr hne
          exact ⟨c', by simp [hc'], h⟩
    cases c with
    | call c =>
      rcases hx : build fmt rs c with ⟨r, rs'⟩
      rw [planSteps, hx] at h
      rcases r with e | b
      · simp at h
      · dsimp only at h
        obtain ⟨new, rfl, h2, h3, h4⟩ := build_requests (Call.Supported.any hc) hx
        rcases hp : planSteps fmt (rs ++ new) cs with e | ⟨bs', ops'⟩
        · rw [hp] at h; simp at h
        · rw [hp] at h
          simp only [Except.ok.injEq, Prod.mk.injEq] at h
          obtain ⟨rfl, rfl⟩ := h
          obtain ⟨k1, k2⟩ := callOps_plain hc.weight (fun r hr => (h4 r hr).1)
          rw [List.drop_left]
          exact fin new (.call b) _ bs' ops' h2 h3 (fun r hr => (h4 r hr).2) k1 k2 hp
    | noise p f =>
      rw [planSteps] at h
      rcases hm : mkSens (p.l0.map fun x : ℚ => (x : ℝ)) (p.linf.map fun x : ℚ => (x : ℝ)) none none with e | sens
      · rw [hm] at h; cases h
      · rw [hm] at h
        dsimp only at h
        rcases hp : planSteps fmt (requestBudget rs p.kind.mechanism 1).2 cs with e | ⟨bs', ops'⟩
        · rw [hp] at h; simp at h
        · rw [hp] at h
          simp only [Except.ok.injEq, Prod.mk.injEq] at h
          obtain ⟨rfl, rfl⟩ := h
          refine fin [⟨p.kind.mechanism, 1⟩] (.noise _ sens) _ bs' ops' ?_ ?_ ?_ ?_ ?_ hp
          · simp [BuiltStep.specs, requestBudget]
          · exact ⟨⟨1, by simp [requestBudget]⟩, hm⟩
          · intro r hr hne
            simp only [List.mem_singleton] at hr
            subst hr
            show p.kind = .gaussian
            cases hk : p.kind with
            | laplace => rw [hk] at hne; exact absurd rfl hne
            | gaussian => rfl
          · intro op hop
            simp only [noiseOps, List.mem_cons, List.not_mem_nil, or_false] at hop
            rcases hop with rfl | rfl
            · exact ⟨one_pos, rfl, rfl⟩
            · trivial
          · simp [noiseOps, reqOf, mechType_eq]

/-! ### All steps -/

/-- The budgets of a step are the published ones. -/
def StepOk (s : Specs) (ε δ : ℕ → ℝ) : Step R K → BuiltStep → Prop
  | .call c, .call b => BuiltOk s ε δ c.kind b
  | .noise p _, .noise i sens => SpecOk s ε δ i p.kind.mechanism ∧
      mkSens (p.l0.map fun x : ℚ => (x : ℝ)) (p.linf.map fun x : ℚ => (x : ℝ)) none none = .ok sens
  | _, _ => False

theorem steps_pairs {lib : Library} (hlib : lib.Contract) {s : Specs} {ε δ : ℕ → ℝ} {fmt : ℚ → String}
    (env : ℕ → Env K) (henv : ∀ j, (env j).Lawful) (pid : R → P) (data : List R) (u : P) {cs : List (Step R K)}
    (hs : ∀ c ∈ cs, c.Supported) (hu : ∀ c ∈ cs, c.Promised pid data u) :
    ∀ (j : ℕ) {rs : List Request} {bs ops}, planSteps fmt rs cs = .ok (bs, ops) → List.Forall₂ (StepOk s ε δ) cs bs →
      ∃ L L', evalSteps lib.sigma s env pid data j cs bs = .ok L ∧
        evalSteps lib.sigma s env pid (removeId pid u data) j cs bs = .ok L' ∧
        L.length = cs.length ∧ L'.length = cs.length ∧
        ∃ p : ∀ j, Pair lib (L.getD j []) (L'.getD j []),
          ((List.range cs.length).map fun j => (p j).e).sum ≤ ((bs.flatMap BuiltStep.specs).map ε).sum ∧
          ((List.range cs.length).map fun j => (p j).d).sum ≤ ((bs.flatMap BuiltStep.specs).map δ).sum := by
  induction cs with
  | nil =>
    intro j rs bs ops h _
    simp only [planSteps, Except.ok.injEq, Prod.mk.injEq] at h
    obtain ⟨rfl, rfl⟩ := h
    obtain ⟨q, -, -⟩ := empty_pair (K := K) lib
    exact ⟨[], [], rfl, rfl, rfl, rfl, fun _ => q, by simp, by simp⟩
  | cons c cs ih =>
    intro j rs bs ops h hbo
    have hc := hs c (by simp)
    have hcu := hu c (by simp)
    have fin : ∀ (rs' : List Request) (b : BuiltStep) (bs' ops') (x x' : List (Candidate K)),
        planSteps fmt rs' cs = .ok (bs', ops') → List.Forall₂ (StepOk s ε δ) cs bs' →
        (∀ L, evalSteps lib.sigma s env pid data (j + 1) cs bs' = .ok L →
          evalSteps lib.sigma s env pid data j (c :: cs) (b :: bs') = .ok (x :: L)) →
        (∀ L, evalSteps lib.sigma s env pid (removeId pid u data) (j + 1) cs bs' = .ok L →
          evalSteps lib.sigma s env pid (removeId pid u data) j (c :: cs) (b :: bs') = .ok (x' :: L)) →
        (∃ q : Pair lib x x', q.e ≤ (b.specs.map ε).sum ∧ q.d ≤ (b.specs.map δ).sum) →
        ∃ L L', evalSteps lib.sigma s env pid data j (c :: cs) (b :: bs') = .ok L ∧
          evalSteps lib.sigma s env pid (removeId pid u data) j (c :: cs) (b :: bs') = .ok L' ∧
          L.length = (c :: cs).length ∧ L'.length = (c :: cs).length ∧
          ∃ p : ∀ j, Pair lib (L.getD j []) (L'.getD j []),
            ((List.range (c :: cs).length).map fun j => (p j).e).sum ≤ (((b :: bs').flatMap BuiltStep.specs).map ε).sum ∧
            ((List.range (c :: cs).length).map fun j => (p j).d).sum ≤ (((b :: bs').flatMap BuiltStep.specs).map δ).sum := by
      intro rs' b bs' ops' x x' hp hbo' h1 h2 hq
      obtain ⟨q, hq1, hq2⟩ := hq
      obtain ⟨L, L', g1, g2, g3, g4, p, g5, g6⟩ := ih (fun c hc => hs c (by simp [hc])) (fun c hc => hu c (by simp [hc]))
        (j + 1) hp hbo'
      let p' : ∀ j, Pair lib ((x :: L).getD j []) ((x' :: L').getD j []) := fun j =>
        match j with
        | 0 => q
        | j + 1 => p j
      refine ⟨x :: L, x' :: L', h1 L g1, h2 L' g2, by simp [g3], by simp [g4], p', ?_, ?_⟩
      · rw [List.length_cons, List.range_succ_eq_map, List.map_cons, List.map_map, List.sum_cons, List.flatMap_cons,
          List.map_append, List.sum_append]
        exact add_le_add hq1 g5
      · rw [List.length_cons, List.range_succ_eq_map, List.map_cons, List.map_map, List.sum_cons, List.flatMap_cons,
          List.map_append, List.sum_append]
        exact add_le_add hq2 g6
    cases c with
    | call c =>
      rcases hx : build fmt rs c with ⟨r, rs'⟩
      rw [planSteps, hx] at h
      rcases r with e | b
      · simp at h
      · dsimp only at h
        rcases hp : planSteps fmt rs' cs with e | ⟨bs', ops'⟩
        · rw [hp] at h; simp at h
        · rw [hp] at h
          simp only [Except.ok.injEq, Prod.mk.injEq] at h
          obtain ⟨rfl, rfl⟩ := h
          cases hbo with
          | cons hb hbo' =>
          have hb : BuiltOk s ε δ c.kind b := hb
          obtain ⟨x, x', h1, h2, hq⟩ : ∃ x x', evalCall lib.sigma s (env j) pid b data c = .ok x ∧
              evalCall lib.sigma s (env j) pid b (removeId pid u data) c = .ok x' ∧
              ∃ q : Pair lib x x', q.e ≤ (b.specs.map ε).sum ∧ q.d ≤ (b.specs.map δ).sum := by
            cases c with
            | aggregate p pub key value => exact aggregate_call hlib hc hx hb (env j) (henv j) pid data u hcu
            | select p key =>
              have hc : (Call.select p key : Call R K).Supported := hc
              exact select_call hlib hc.1 hx hb (env j) (henv j) pid data u
          refine fin rs' (.call b) bs' ops' x x' hp hbo' ?_ ?_ hq
          · intro L hL; simp only [evalSteps, h1, hL]
          · intro L hL; simp only [evalSteps, h2, hL]
    | noise p f =>
      rw [planSteps] at h
      rcases hm : mkSens (p.l0.map fun x : ℚ => (x : ℝ)) (p.linf.map fun x : ℚ => (x : ℝ)) none none with e | sens
      · rw [hm] at h; cases h
      · rw [hm] at h
        dsimp only at h
        rcases hp : planSteps fmt (requestBudget rs p.kind.mechanism 1).2 cs with e | ⟨bs', ops'⟩
        · rw [hp] at h; simp at h
        · rw [hp] at h
          simp only [Except.ok.injEq, Prod.mk.injEq] at h
          obtain ⟨rfl, rfl⟩ := h
          cases hbo with
          | cons hb hbo' =>
          have hb : SpecOk s ε δ (requestBudget rs p.kind.mechanism 1).1 p.kind.mechanism ∧ _ := hb
          obtain ⟨⟨a, ha, ha0⟩, ⟨b, hb', hb0⟩, -⟩ := hc
          rw [ha, hb', Option.map_some, Option.map_some, AddNoise.mkSens_ok ha0 hb0] at hm
          cases hm
          obtain ⟨x, x', h1, h2, q, hq1, hq2⟩ := noise_call hlib ha hb' ha0 hb0 hb.1 (show Sensitive p (f data) (f (removeId pid u data)) from hcu)
          refine fin _ (.noise _ _) bs' ops' x x' hp hbo' ?_ ?_ ⟨q, by simpa [BuiltStep.specs] using hq1, by simpa [BuiltStep.specs] using hq2⟩
          · intro L hL; simp only [evalSteps, h1, hL]
          · intro L hL; simp only [evalSteps, h2, hL]

/-- **C73.**  A pipeline of any `aggregate`, `select_partitions` and `add_dp_noise` calls on one naive accountant with total budget
`(e, d)` is `(e, d)`-differentially private, if PyDP keeps its promises and the collections given to `add_dp_noise` have the
sensitivities that the user states (`Step.Promised`).  As in C62, the random choices `ω` have any distribution `μ`, and what is
observed are the released partitions among any finite set `U` of (step, partition), with their noisy numbers. -/
theorem C73_mixed_pipeline_is_differentially_private (fmt : ℚ → String) (lib : Library) (hlib : lib.Contract) {e d : ℚ} {num ws s0}
    (h0 : Budget.init e d num ws = .ok s0) (cs : List (Step R K)) (hs : ∀ c ∈ cs, c.Supported)
    (hd : (∃ c ∈ cs, c.NeedsDelta) → 0 < d) {bs ops} (hp : planSteps fmt [] cs = .ok (bs, ops))
    (hc : (Budget.step (Budget.run s0 ops).1 .compute).2 = .unit)
    {Ω : Type} [MeasurableSpace Ω] (μ : Measure Ω) [IsProbabilityMeasure μ] (env : Ω → ℕ → Env K)
    (henv : ∀ ω j, (env ω j).Lawful) (pid : R → P) (data : List R) (u : P) (hu : ∀ c ∈ cs, c.Promised pid data u) :
    let s := specOf (Budget.step (Budget.run s0 ops).1 .compute).1
    ∃ L L' : Ω → List (List (Candidate K)),
      (∀ ω, evalSteps lib.sigma s (env ω) pid data 0 cs bs = .ok (L ω) ∧
        evalSteps lib.sigma s (env ω) pid (data.filter fun r => pid r ≠ u) 0 cs bs = .ok (L' ω)) ∧
      ∀ (U : Finset (ℕ × K)) (S : Finset (ℕ × ℕ)),
        (∀ ω, IsProbabilityMeasure (observedLaw lib U S (L ω)) ∧ IsProbabilityMeasure (observedLaw lib U S (L' ω))) ∧
        ∀ A, MeasurableSet A →
          ∫⁻ ω, observedLaw lib U S (L ω) A ∂μ
            ≤ ENNReal.ofReal (Real.exp e) * ∫⁻ ω, observedLaw lib U S (L' ω) A ∂μ + ENNReal.ofReal d ∧
          ∫⁻ ω, observedLaw lib U S (L' ω) A ∂μ
            ≤ ENNReal.ofReal (Real.exp e) * ∫⁻ ω, observedLaw lib U S (L ω) A ∂μ + ENNReal.ofReal d := by
  intro s
  obtain ⟨hplain, new, hreq, hspecs, hrq, hnd⟩ := planSteps_spec hs hp
  obtain ⟨ε, δ, hok, hε, hδ⟩ := budgets_published hplain hreq h0 (fun r hr hne => hd (hnd r hr hne)) hc
  have hbo : List.Forall₂ (StepOk s ε δ) cs bs := by
    refine hrq.imp ?_
    intro c b h
    rw [List.nil_append] at h
    cases c with
    | call c =>
      cases b with
      | noise i sens => exact h
      | call b =>
        have h : b.Requested c.kind new := h
        refine ⟨fun part hpart i hi => ?_, fun i hi => ?_, h.nodup⟩
        · obtain ⟨w, hw⟩ := h.parts part hpart i hi
          exact hok i _ hw
        · obtain ⟨w, hw⟩ := h.selection i hi
          exact hok i _ hw
    | noise p f =>
      cases b with
      | call b => exact h
      | noise i sens =>
        obtain ⟨⟨w, hw⟩, h2⟩ := h
        exact ⟨hok i _ hw, h2⟩
  have key := fun ω => steps_pairs hlib (env ω) (henv ω) pid data u hs hu 0 hp hbo
  rw [List.length_nil] at hspecs
  rw [hspecs] at key
  choose L L' a1 a2 a3 a4 p a5 a6 using key
  refine ⟨L, L', fun ω => ⟨a1 ω, a2 ω⟩, fun U S => ⟨fun ω => ⟨?_, ?_⟩, fun A hA => ?_⟩⟩
  · exact observedLaw_prob (p ω) U S
  · exact observedLaw_prob (fun j => (p ω j).swap) U S
  · have fin : ∀ f g : Ω → ENNReal, (∀ ω, f ω ≤ ENNReal.ofReal (Real.exp e) * g ω + ENNReal.ofReal d) →
        ∫⁻ ω, f ω ∂μ ≤ ENNReal.ofReal (Real.exp e) * ∫⁻ ω, g ω ∂μ + ENNReal.ofReal d := by
      intro f g hfg
      refine (lintegral_mono hfg).trans ?_
      rw [lintegral_add_right _ measurable_const, lintegral_const_mul' _ _ ENNReal.ofReal_ne_top]
      simp
    have h1 : ∀ ω, ((List.range cs.length).map fun j => (p ω j).e).sum ≤ e := fun ω => (a5 ω).trans hε
    have h2 : ∀ ω, ((List.range cs.length).map fun j => (p ω j).d).sum ≤ d := fun ω => (a6 ω).trans hδ
    constructor
    · exact fin _ _ fun ω => ((observed_indist cs.length (p ω) (a3 ω) (a4 ω) U S).mono (h1 ω) (h2 ω)) A hA
    · exact fin _ _ fun ω => ((observed_indist cs.length (fun j => (p ω j).swap) (a4 ω) (a3 ω) U S).mono (h1 ω) (h2 ω)) A hA

/-! ### Pipelines run -/

/-- The announcements made to the accountant fit the pipeline. -/
def AnnouncedSteps (num : Option ℤ) (ws : Option (List ℚ)) (cs : List (Step R K)) : Prop :=
  (∀ n, num = some n → n = cs.length ∧ ∀ c ∈ cs, c.weight = 1) ∧ (∀ l, ws = some l → l = cs.map Step.weight)

/-- `add_dp_noise` on an accountant outside of all scopes. -/
theorem run_noiseOps {p : AddNoise.Params} (s : State) (hs : s.finalized = false) (hst : s.stack = [])
    (hg : p.kind = .gaussian → s.totalDelta ≠ 0) (hw : ∀ ws, Budget.truthyList s.expectedWeights = some ws → ws.sum ≠ 0) :
    let s' := (Budget.run s (noiseOps p)).1
    (s'.finalized = false ∧ s'.stack = [] ∧ s'.actualWeights = s.actualWeights ++ [p.weight] ∧
      s'.expectedNum = s.expectedNum ∧ s'.expectedWeights = s.expectedWeights ∧ s'.totalDelta = s.totalDelta) ∧
    ∀ o ∈ (Budget.run s (noiseOps p)).2, Out.Fine o := by
  have hstep := step_request hs (AddNoise.mechType p.kind) 1 1 (fun h => hg (by
    cases hk : p.kind with
    | laplace => rw [hk] at h; cases h
    | gaussian => rfl))
  have hreg : Budget.register s ⟨AddNoise.mechType p.kind, 1, 1, 1, none, none⟩
      = { s with mechs := s.mechs ++ [⟨AddNoise.mechType p.kind, 1, 1, 1, none, none⟩] } := by
    simp [Budget.register, hst]
  simp only [noiseOps, Budget.run, hstep]
  rw [hreg]
  simp only [Budget.step, Budget.computeBudgetForAggregation]
  cases hn : Budget.truthyNum s.expectedNum with
  | some n =>
    refine ⟨⟨hs, hst, rfl, rfl, rfl, rfl⟩, ?_⟩
    intro o ho
    simp only [List.mem_cons, List.not_mem_nil, or_false] at ho
    rcases ho with rfl | rfl <;> trivial
  | none =>
    cases hws : Budget.truthyList s.expectedWeights with
    | none =>
      refine ⟨⟨hs, hst, rfl, rfl, rfl, rfl⟩, ?_⟩
      intro o ho
      simp only [List.mem_cons, List.not_mem_nil, or_false] at ho
      rcases ho with rfl | rfl <;> trivial
    | some ws =>
      simp only [hw ws hws, if_false]
      refine ⟨⟨hs, hst, by trivial, by trivial, by trivial, by trivial⟩, ?_⟩
      intro o ho
      simp only [List.mem_cons, List.not_mem_nil, or_false] at ho
      rcases ho with rfl | rfl <;> trivial

/-- **C73** (pipelines run).  For supported steps the driver raises no exception: neither the engine nor any call on the
accountant, and `compute_budgets` succeeds, whatever fitting announcements were made. -/
theorem C73_supported_pipeline_runs (fmt : ℚ → String) (cs : List (Step R K)) (hs : ∀ c ∈ cs, c.Supported) {e d : ℚ}
    {num ws s0} (h0 : Budget.init e d num ws = .ok s0) (hd : (∃ c ∈ cs, c.NeedsDelta) → 0 < d)
    (ha : AnnouncedSteps num ws cs) :
    ∃ bs ops, planSteps fmt [] cs = .ok (bs, ops) ∧ (∀ err, Out.raised err ∉ (Budget.run s0 ops).2) ∧
      (Budget.step (Budget.run s0 ops).1 .compute).2 = .unit := by
  have key : ∀ (cs : List (Step R K)) (rs : List Request), (∀ c ∈ cs, c.Supported) → ((∃ c ∈ cs, c.NeedsDelta) → 0 < d) →
      ∃ bs ops, planSteps fmt rs cs = .ok (bs, ops) ∧ ∀ s : State, s.finalized = false → s.stack = [] →
        s.totalDelta = d → (∀ ws, Budget.truthyList s.expectedWeights = some ws → ws.sum ≠ 0) →
        let s' := (Budget.run s ops).1
        (s'.finalized = false ∧ s'.stack = [] ∧ s'.actualWeights = s.actualWeights ++ cs.map Step.weight ∧
          s'.expectedNum = s.expectedNum ∧ s'.expectedWeights = s.expectedWeights) ∧
        ∀ o ∈ (Budget.run s ops).2, Out.Fine o := by
    intro cs
    induction cs with
    | nil =>
      intro rs _ _
      exact ⟨[], [], rfl, fun s hs hst _ _ => ⟨⟨hs, hst, by simp [Budget.run], rfl, rfl⟩, by simp [Budget.run]⟩⟩
    | cons c cs ih =>
      intro rs hs hd
      have hc := hs c (by simp)
      have fin : ∀ (o ops : List Op),
          (∀ s : State, s.finalized = false → s.stack = [] → s.totalDelta = d →
            (∀ ws, Budget.truthyList s.expectedWeights = some ws → ws.sum ≠ 0) →
            let s' := (Budget.run s o).1
            (s'.finalized = false ∧ s'.stack = [] ∧ s'.actualWeights = s.actualWeights ++ [c.weight] ∧
              s'.expectedNum = s.expectedNum ∧ s'.expectedWeights = s.expectedWeights ∧ s'.totalDelta = s.totalDelta) ∧
            ∀ x ∈ (Budget.run s o).2, Out.Fine x) →
          (∀ s : State, s.finalized = false → s.stack = [] → s.totalDelta = d →
            (∀ ws, Budget.truthyList s.expectedWeights = some ws → ws.sum ≠ 0) →
            let s' := (Budget.run s ops).1
            (s'.finalized = false ∧ s'.stack = [] ∧ s'.actualWeights = s.actualWeights ++ cs.map Step.weight ∧
              s'.expectedNum = s.expectedNum ∧ s'.expectedWeights = s.expectedWeights) ∧
            ∀ x ∈ (Budget.run s ops).2, Out.Fine x) →
          ∀ s : State, s.finalized = false → s.stack = [] → s.totalDelta = d →
            (∀ ws, Budget.truthyList s.expectedWeights = some ws → ws.sum ≠ 0) →
            let s' := (Budget.run s (o ++ ops)).1
            (s'.finalized = false ∧ s'.stack = [] ∧ s'.actualWeights = s.actualWeights ++ (c :: cs).map Step.weight ∧
              s'.expectedNum = s.expectedNum ∧ s'.expectedWeights = s.expectedWeights) ∧
            ∀ x ∈ (Budget.run s (o ++ ops)).2, Out.Fine x := by
        intro o ops k1 k2 s hsf hst htd hws
        obtain ⟨⟨b1, b2, b3, b4, b5, b6⟩, b7⟩ := k1 s hsf hst htd hws
        obtain ⟨⟨c1, c2, c3, c4, c5⟩, c6⟩ := k2 _ b1 b2 (by rw [b6, htd]) (by rw [b5]; exact hws)
        rw [Budget.run_append]
        refine ⟨⟨c1, c2, ?_, by rw [c4, b4], by rw [c5, b5]⟩, ?_⟩
        · rw [c3, b3]; simp
        · intro o ho
          rcases List.mem_append.mp ho with ho | ho
          · exact b7 o ho
          · exact c6 o ho
      cases c with
      | call c =>
        obtain ⟨b, rs', hb⟩ := build_ok fmt rs (show c.Supported from hc)
        obtain ⟨new, rfl, -, -, h4⟩ := build_requests (Call.Supported.any hc) hb
        obtain ⟨bs, ops, g1, g2⟩ := ih (rs ++ new) (fun c hc => hs c (by simp [hc]))
          (fun ⟨c, hc, h⟩ => hd ⟨c, by simp [hc], h⟩)
        refine ⟨.call b :: bs, callOps c.weight new ++ ops, ?_, fin _ _ ?_ g2⟩
        · simp only [planSteps, hb, g1, List.drop_left]
        · intro s hsf hst htd hws
          exact run_callOps (w := c.weight) (l := new) (fun r hr => (h4 r hr).1) s hsf hst
            (fun r hr hm => by
              rw [htd]
              exact (hd ⟨.call c, by simp, (h4 r hr).2 (by rw [hm]; simp)⟩).ne') hws
      | noise p f =>
        obtain ⟨⟨a, ha, ha0⟩, ⟨b, hb', hb0⟩, -⟩ := hc
        obtain ⟨bs, ops, g1, g2⟩ := ih (requestBudget rs p.kind.mechanism 1).2 (fun c hc => hs c (by simp [hc]))
          (fun ⟨c, hc, h⟩ => hd ⟨c, by simp [hc], h⟩)
        have hm := AddNoise.mkSens_ok ha0 hb0
        refine ⟨.noise (requestBudget rs p.kind.mechanism 1).1
          ⟨some (a : ℝ), some (b : ℝ), some ((a : ℝ) * b), some (Real.sqrt a * b)⟩ :: bs, noiseOps p ++ ops, ?_, fin _ _ ?_ g2⟩
        · simp only [planSteps, ha, hb', Option.map_some, hm, g1]
        · intro s hsf hst htd hws
          exact run_noiseOps s hsf hst (fun hk => by rw [htd]; exact (hd ⟨.noise p f, by simp, hk⟩).ne') hws
  obtain ⟨bs, ops, h1, h2⟩ := key cs [] hs hd
  refine ⟨bs, ops, h1, announced_run (weights := cs.map Step.weight) ?_ h0 ⟨?_, ha.2⟩ h2⟩
  · intro w hw
    obtain ⟨c, hc, rfl⟩ := List.mem_map.mp hw
    exact (hs c hc).weight
  · intro n hn
    obtain ⟨h1, h2⟩ := ha.1 n hn
    refine ⟨by rw [List.length_map]; exact h1, fun w hw => ?_⟩
    obtain ⟨c, hc, rfl⟩ := List.mem_map.mp hw
    exact h2 c hc

/-! ### The steps are the calls of the engine -/

/-- **C73** (the model of `add_dp_noise` is the one of C54).  If `add_dp_noise` succeeds on an accountant, then the calls of the
step lead to the same accountant and raise nothing, the remembered budget is the next one and the sensitivities are those of the
step; and evaluating its result adds to every value a sample of the mechanism that the step attaches to it. -/
theorem C73_noise_is_add_dp_noise (s s' : State) (p : AddNoise.Params) (h : AddNoise.Handle)
    (hp : AddNoise.addDpNoise s p = (s', .ok h)) :
    (Budget.run s (noiseOps p)).1 = s' ∧ (∀ err, Out.raised err ∉ (Budget.run s (noiseOps p)).2) ∧
      h.spec = s.mechs.length ∧
      mkSens (p.l0.map fun x : ℚ => (x : ℝ)) (p.linf.map fun x : ℚ => (x : ℝ)) none none = .ok h.sens ∧
      ∀ (sigma : ℝ → ℝ → ℝ → ℝ) (later : State) (noise : ℕ → Additive → ℝ) (col : List (K × ℚ)) (cands : List (Candidate K)),
        noiseColumn sigma (specOf later) h.spec h.sens col = .ok cands →
        ∃ m : Additive, cands = col.map (fun x => ⟨x.1, .always, [⟨x.1, h.spec, 0, x.2, m⟩]⟩) ∧
          AddNoise.evaluate sigma later h noise 0 col = .ok (col.mapIdx fun i x => (x.1, (x.2 : ℝ) + noise i m)) := by
  have hspec := (AddNoise.C54_one_mechanism s s' p h hp).2.1
  have hrun : (Budget.run s (noiseOps p)).1 = s' ∧ (∀ err, Out.raised err ∉ (Budget.run s (noiseOps p)).2) ∧
      mkSens (p.l0.map fun x : ℚ => (x : ℝ)) (p.linf.map fun x : ℚ => (x : ℝ)) none none = .ok h.sens := by
    unfold AddNoise.addDpNoise at hp
    simp only [noiseOps, Budget.run, Budget.step]
    rcases hr : Budget.requestBudget s (AddNoise.mechType p.kind) 1 1 1 none with ⟨s1, r⟩
    rw [hr] at hp
    cases r with
    | error e => simp at hp
    | ok i =>
      dsimp only at hp ⊢
      rcases hm : mkSens (p.l0.map fun x : ℚ => (x : ℝ)) (p.linf.map fun x : ℚ => (x : ℝ)) none none with e | sens
      · rw [hm] at hp; simp at hp
      · rw [hm] at hp
        dsimp only at hp
        rcases hb : Budget.computeBudgetForAggregation s1 p.weight with ⟨s2, b⟩
        rw [hb] at hp
        cases b with
        | error e => simp at hp
        | ok b =>
          simp only [Prod.mk.injEq, Except.ok.injEq] at hp
          obtain ⟨rfl, rfl⟩ := hp
          exact ⟨rfl, by simp, rfl⟩
  refine ⟨hrun.1, hrun.2.1, hspec, hrun.2.2, fun sigma later noise col cands hcol => ?_⟩
  rcases hm : createAdditive sigma (specOf later h.spec) h.sens with e | m
  · cases col with
    | nil => exact ⟨.laplace 0 0, by rw [noiseColumn, List.mapM_nil] at hcol; exact (Except.ok.inj hcol).symm, rfl⟩
    | cons x col =>
      rw [noiseColumn, List.mapM_cons, hm] at hcol
      cases hcol
  · rw [noiseColumn_ok hm] at hcol
    refine ⟨m, (Except.ok.inj hcol).symm, ?_⟩
    have gen : ∀ (col : List (K × ℚ)) (j : ℕ),
        AddNoise.evaluate sigma later h noise j col = .ok (col.mapIdx fun i x => (x.1, (x.2 : ℝ) + noise (j + i) m)) := by
      intro col
      induction col with
      | nil => intro j; rfl
      | cons x col ih =>
        intro j
        simp only [AddNoise.evaluate, hm, ih (j + 1), List.mapIdx_cons, Nat.add_zero]
        congr 3
        funext i x
        rw [Nat.add_right_comm, Nat.add_assoc]
    simpa using gen col 0

/-- **C73** (steps without `add_dp_noise`).  Pipelines without `add_dp_noise` are those of C62: the same plan and the same
evaluation. -/
theorem C73_calls_only (fmt : ℚ → String) (sigma : ℝ → ℝ → ℝ → ℝ) (s : Specs) (env : ℕ → Env K) (pid : R → P) (data : List R)
    (cs : List (Call R K)) :
    (∀ rs, planSteps fmt rs (cs.map Step.call) = match planCalls fmt rs cs with
      | .error e => .error e
      | .ok (bs, ops) => .ok (bs.map BuiltStep.call, ops)) ∧
    ∀ j bs, evalSteps sigma s env pid data j (cs.map Step.call) (bs.map BuiltStep.call) = evalCalls sigma s env pid data j cs bs := by
  constructor
  · induction cs with
    | nil => intro rs; rfl
    | cons c cs ih =>
      intro rs
      simp only [List.map_cons, planSteps, planCalls]
      rcases build fmt rs c with ⟨e | b, rs'⟩
      · rfl
      · dsimp only
        rw [ih]
        rcases planCalls fmt rs' cs with e | ⟨bs, ops⟩ <;> rfl
  · induction cs with
    | nil => intro j bs; cases bs <;> rfl
    | cons c cs ih =>
      intro j bs
      cases bs with
      | nil => rfl
      | cons b bs =>
        simp only [List.map_cons, evalSteps, evalCalls, ih]
        rcases evalCall sigma s (env j) pid b data c with e | x
        · rfl
        · rcases evalCalls sigma s env pid data (j + 1) cs bs with e | y <;> rfl

/-! ### Nothing is left out -/

theorem steps_cover (fmt : ℚ → String) (lib : Library) (pid : R → P) (data : List R) (u : P) :
    ∀ (cs : List (Step R K)) (j0 : ℕ) (rs : List Request) (bs ops), (∀ c ∈ cs, c.SupportedAny) →
      (∀ c ∈ cs, c.Promised pid data u) → planSteps fmt rs cs = .ok (bs, ops) →
      ∃ (U : Finset (ℕ × K)) (S : Finset (ℕ × ℕ)), ∀ (s : Specs) (env : ℕ → Env K), (∀ j, (env j).Lawful) →
      ∀ data' : List R, data' = data ∨ data' = (data.filter fun r => pid r ≠ u) →
      ∀ L, evalSteps lib.sigma s env pid data' j0 cs bs = .ok L →
      ∀ j, ∀ c ∈ L.getD j [], (j0 + j, c.key) ∈ U ∧ decisionLaw lib (L.getD j []) c.key = c.gate.law lib ∧
        ∀ n ∈ c.numbers, (n.spec, n.comp) ∈ S ∧ numberLaw (L.getD j []) c.key (n.spec, n.comp) = n.law := by
  intro cs
  induction cs with
  | nil =>
    intro j0 rs bs ops _ _ h
    refine ⟨∅, ∅, fun s env _ data' _ L hL j c hc => ?_⟩
    have : L = [] := by
      unfold evalSteps at hL
      exact (Except.ok.inj hL).symm
    subst this
    simp at hc
  | cons c cs ih =>
    intro j0 rs bs ops hs hu h
    have hc := hs c (by simp)
    have hcu := hu c (by simp)
    -- one step, then the others
    have fin : ∀ (rs' : List Request) (b : BuiltStep) (bs' ops') (ev : Specs → Env K → List R → Except Err (List (Candidate K)))
        (ks : List K) (S : Finset (ℕ × ℕ)), planSteps fmt rs' cs = .ok (bs', ops') →
        (∀ s env data', evalSteps lib.sigma s env pid data' j0 (c :: cs) (b :: bs') =
          match ev s (env j0) data' with
          | .error e => .error e
          | .ok x => match evalSteps lib.sigma s env pid data' (j0 + 1) cs bs' with
            | .error e => .error e
            | .ok y => .ok (x :: y)) →
        (∀ s env, env.Lawful → ∀ data', data' = data ∨ data' = (data.filter fun r => pid r ≠ u) → ∀ y, ev s env data' = .ok y →
          (y.map Candidate.key).Nodup ∧ ∀ x ∈ y, x.key ∈ ks ∧ (x.numbers.map fun n => (n.spec, n.comp)).Nodup ∧
            ∀ n ∈ x.numbers, (n.spec, n.comp) ∈ S) →
        ∃ (U : Finset (ℕ × K)) (S : Finset (ℕ × ℕ)), ∀ (s : Specs) (env : ℕ → Env K), (∀ j, (env j).Lawful) →
        ∀ data' : List R, data' = data ∨ data' = (data.filter fun r => pid r ≠ u) →
        ∀ L, evalSteps lib.sigma s env pid data' j0 (c :: cs) (b :: bs') = .ok L →
        ∀ j, ∀ c ∈ L.getD j [], (j0 + j, c.key) ∈ U ∧ decisionLaw lib (L.getD j []) c.key = c.gate.law lib ∧
          ∀ n ∈ c.numbers, (n.spec, n.comp) ∈ S ∧ numberLaw (L.getD j []) c.key (n.spec, n.comp) = n.law := by
      intro rs' b bs' ops' ev ks S hp hev hS
      obtain ⟨U', S', ih⟩ := ih (j0 + 1) rs' bs' ops' (fun c hc => hs c (by simp [hc])) (fun c hc => hu c (by simp [hc])) hp
      refine ⟨(ks.map fun k => (j0, k)).toFinset ∪ U', S ∪ S', fun s env henv data' hd L hL j x hxL => ?_⟩
      rw [hev] at hL
      rcases h1 : ev s (env j0) data' with e | y
      · rw [h1] at hL; cases hL
      · rw [h1] at hL
        rcases h2 : evalSteps lib.sigma s env pid data' (j0 + 1) cs bs' with e | L'
        · rw [h2] at hL; cases hL
        · rw [h2] at hL
          cases hL
          cases j with
          | zero =>
            have hxy : x ∈ y := hxL
            obtain ⟨hn, hall⟩ := hS s (env j0) (henv j0) data' hd y h1
            obtain ⟨g1, g2, g3⟩ := hall x hxy
            have hf : y.find? (fun c => c.key = x.key) = some x := find_unique Candidate.key hn hxy
            refine ⟨?_, ?_, fun n hn' => ⟨?_, ?_⟩⟩
            · rw [Finset.mem_union, List.mem_toFinset]
              exact Or.inl (List.mem_map.mpr ⟨x.key, g1, rfl⟩)
            · show decisionLaw lib y x.key = _
              simp only [decisionLaw, hf]
            · exact Finset.mem_union_left _ (g3 n hn')
            · show numberLaw y x.key _ = _
              have hf' : x.numbers.find? (fun m => (m.spec, m.comp) = (n.spec, n.comp)) = some n :=
                find_unique (fun n : Noisy K => (n.spec, n.comp)) g2 hn'
              simp only [numberLaw, hf, hf']
          | succ j =>
            obtain ⟨g1, g2, g3⟩ := ih s env henv data' hd L' h2 j x hxL
            refine ⟨?_, g2, fun n hn' => ⟨Finset.mem_union_right _ (g3 n hn').1, (g3 n hn').2⟩⟩
            apply Finset.mem_union_right
            rw [show j0 + (j + 1) = j0 + 1 + j by omega]
            exact g1
    cases c with
    | call c =>
      rcases hx : build fmt rs c with ⟨r, rs'⟩
      rw [planSteps, hx] at h
      rcases r with e | b
      · simp at h
      · dsimp only at h
        rcases hp : planSteps fmt rs' cs with e | ⟨bs', ops'⟩
        · rw [hp] at h; simp at h
        · rw [hp] at h
          simp only [Except.ok.injEq, Prod.mk.injEq] at h
          obtain ⟨rfl, rfl⟩ := h
          obtain ⟨S, hS⟩ := call_cover (P := P) (sigma := lib.sigma) (show c.SupportedAny from hc) hx
          refine fin rs' (.call b) bs' ops' (fun s env data' => evalCall lib.sigma s env pid b data' c) (c.partitions data) S hp ?_ ?_
          · intro s env data'
            simp only [evalSteps]
            rcases evalCall lib.sigma s (env j0) pid b data' c with e | x
            · rfl
            · rcases evalSteps lib.sigma s env pid data' (j0 + 1) cs bs' with e | y <;> rfl
          · intro s env henv data' hd y hy
            obtain ⟨g1, g2⟩ := hS s env henv pid data' y hy
            refine ⟨g1, fun x hx => ⟨partitions_mono ?_ c _ (g2 x hx).1, (g2 x hx).2⟩⟩
            rcases hd with rfl | rfl
            · exact fun r hr => hr
            · exact fun r hr => (List.mem_filter.mp hr).1
    | noise p f =>
      rw [planSteps] at h
      rcases hm : mkSens (p.l0.map fun x : ℚ => (x : ℝ)) (p.linf.map fun x : ℚ => (x : ℝ)) none none with e | sens
      · rw [hm] at h; cases h
      · rw [hm] at h
        dsimp only at h
        rcases hp : planSteps fmt (requestBudget rs p.kind.mechanism 1).2 cs with e | ⟨bs', ops'⟩
        · rw [hp] at h; simp at h
        · rw [hp] at h
          simp only [Except.ok.injEq, Prod.mk.injEq] at h
          obtain ⟨rfl, rfl⟩ := h
          have hcu : Sensitive p (f data) (f (data.filter fun r => pid r ≠ u)) := hcu
          refine fin _ (.noise (requestBudget rs p.kind.mechanism 1).1 sens) bs' ops'
            (fun s _ data' => noiseColumn lib.sigma s (requestBudget rs p.kind.mechanism 1).1 sens (f data')) ((f data).map Prod.fst)
            {((requestBudget rs p.kind.mechanism 1).1, 0)} hp ?_ ?_
          · intro s env data'
            simp only [evalSteps]
            rcases noiseColumn lib.sigma s (requestBudget rs p.kind.mechanism 1).1 sens (f data') with e | x
            · rfl
            · rcases evalSteps lib.sigma s env pid data' (j0 + 1) cs bs' with e | y <;> rfl
          · intro s env henv data' hd y hy
            have hk : ((f data').map Prod.fst).Nodup ∧ ∀ k, k ∈ (f data').map Prod.fst → k ∈ (f data).map Prod.fst := by
              rcases hd with rfl | rfl
              · exact ⟨hcu.nodup, fun _ h => h⟩
              · exact ⟨hcu.nodup', fun k h => (hcu.keys k).mpr h⟩
            have hy2 := mapM_inv hy
            have one : ∀ (x : K × ℚ) (b : Candidate K),
                (match createAdditive lib.sigma (s (requestBudget rs p.kind.mechanism 1).1) sens with
                  | .ok m => (.ok ⟨x.1, .always, [⟨x.1, (requestBudget rs p.kind.mechanism 1).1, 0, x.2, m⟩]⟩ : Except Err (Candidate K))
                  | .error e => .error (.mechanism e)) = .ok b →
                x.1 = b.key ∧ b.numbers.map (fun n => (n.spec, n.comp)) = [((requestBudget rs p.kind.mechanism 1).1, 0)] := by
              intro x b hb
              split at hb
              · cases hb; exact ⟨rfl, rfl⟩
              · cases hb
            have hmap := forall₂_map hy2 Prod.fst Candidate.key fun a b h => (one a b h).1.symm
            refine ⟨by rw [hmap]; exact hk.1, fun x hx => ?_⟩
            obtain ⟨a, ha, hab⟩ := forall₂_mem hy2 hx
            obtain ⟨e1, e2⟩ := one a x hab
            refine ⟨hk.2 _ (by rw [← e1]; exact List.mem_map.mpr ⟨a, ha, rfl⟩), by rw [e2]; simp, fun n hn => ?_⟩
            have : (n.spec, n.comp) ∈ x.numbers.map (fun n => (n.spec, n.comp)) := List.mem_map.mpr ⟨n, hn, rfl⟩
            rw [e2] at this
            simpa using this

/-- **C73** (nothing is left out).  For every dataset and privacy id there are finite sets `U` of (step, partition) and `S` of
labels such that on this dataset and on the one without the id, however the computation is executed, every partition that may be
released is in `U`, every number in it has its label in `S`, and `observedLaw` takes its decision and its numbers with the
distributions with which they are released. -/
theorem C73_everything_is_observed (fmt : ℚ → String) (lib : Library) (pid : R → P) (data : List R) (u : P) (cs : List (Step R K))
    (hs : ∀ c ∈ cs, c.Supported) (hu : ∀ c ∈ cs, c.Promised pid data u) {bs ops} (hp : planSteps fmt [] cs = .ok (bs, ops)) :
    ∃ (U : Finset (ℕ × K)) (S : Finset (ℕ × ℕ)), ∀ (s : Specs) (env : ℕ → Env K), (∀ j, (env j).Lawful) →
      ∀ data' : List R, data' = data ∨ data' = (data.filter fun r => pid r ≠ u) →
      ∀ L, evalSteps lib.sigma s env pid data' 0 cs bs = .ok L →
      ∀ j, ∀ c ∈ L.getD j [], (j, c.key) ∈ U ∧ decisionLaw lib (L.getD j []) c.key = c.gate.law lib ∧
        ∀ n ∈ c.numbers, (n.spec, n.comp) ∈ S ∧ numberLaw (L.getD j []) c.key (n.spec, n.comp) = n.law := by
  obtain ⟨U, S, h⟩ := steps_cover fmt lib pid data u cs 0 [] bs ops (fun c hc => (hs c hc).any) hu hp
  refine ⟨U, S, fun s env henv data' hd L hL j c hc => ?_⟩
  have := h s env henv data' hd L hL j c hc
  rwa [Nat.zero_add] at this

/-! ### A concrete pipeline -/

/-- The number of users of the days 0 and 1. -/
def usersPerDay (data : List (ℕ × ℕ × ℚ)) : List (ℕ × ℚ) :=
  [0, 1].map fun day => (day, ((((data.filter fun r => r.2.1 = day).map Prod.fst).toFinset.card : ℕ) : ℚ))

theorem users_without (data : List (ℕ × ℕ × ℚ)) (u day : ℕ) :
    (((data.filter fun r => r.1 ≠ u).filter fun r => r.2.1 = day).map Prod.fst).toFinset
      = ((data.filter fun r => r.2.1 = day).map Prod.fst).toFinset.erase u := by
  ext x
  simp only [List.mem_toFinset, List.mem_map, List.mem_filter, Finset.mem_erase, decide_eq_true_eq]
  constructor
  · rintro ⟨r, ⟨⟨h1, h2⟩, h3⟩, rfl⟩
    exact ⟨h2, r, ⟨h1, h3⟩, rfl⟩
  · rintro ⟨h1, r, ⟨h2, h3⟩, rfl⟩
    exact ⟨r, ⟨⟨h2, h1⟩, h3⟩, rfl⟩

/-- One user changes at most two numbers, each by at most 1. -/
theorem usersPerDay_sensitive (kind : NoiseKind) (w : ℚ) (data : List (ℕ × ℕ × ℚ)) (u : ℕ) :
    Sensitive ⟨kind, some 2, some 1, w⟩ (usersPerDay data) (usersPerDay (data.filter fun r => r.1 ≠ u)) := by
  have keys : ∀ d, (usersPerDay d).map Prod.fst = [0, 1] := fun _ => rfl
  refine ⟨by rw [keys]; decide, by rw [keys]; decide, fun k => by rw [keys, keys], fun a ha => ?_, fun b hb k v v' hv hv' => ?_⟩
  · cases ha
    have h := List.length_filter_le (fun x => decide (x ∉ usersPerDay (data.filter fun r => r.1 ≠ u))) (usersPerDay data)
    have h2 : (usersPerDay data).length = 2 := rfl
    rw [h2] at h
    exact_mod_cast h
  · cases hb
    unfold usersPerDay at hv hv'
    obtain ⟨day, -, h1⟩ := List.mem_map.mp hv
    obtain ⟨day', -, h2⟩ := List.mem_map.mp hv'
    obtain ⟨rfl, rfl⟩ := Prod.mk.inj h1
    obtain ⟨rfl, rfl⟩ := Prod.mk.inj h2
    rw [users_without]
    have c1 := Finset.card_erase_le (a := u) (s := ((data.filter fun r => r.2.1 = day').map Prod.fst).toFinset)
    have c2 := Finset.pred_card_le_card_erase (a := u) (s := ((data.filter fun r => r.2.1 = day').map Prod.fst).toFinset)
    generalize ((data.filter fun r => r.2.1 = day').map Prod.fst).toFinset.card = A at c1 c2 ⊢
    generalize (((data.filter fun r => r.2.1 = day').map Prod.fst).toFinset.erase u).card = B at c1 c2 ⊢
    have e1 : (B : ℚ) ≤ A := by exact_mod_cast c1
    have e2 : (A : ℚ) ≤ B + 1 := by
      have : A ≤ B + 1 := by omega
      exact_mod_cast this
    rw [abs_le]
    constructor <;> linarith

/-- The calls of C62's example, Gaussian noise on the numbers of users with double weight, and Laplace noise on them. -/
def exampleSteps : List (Step (ℕ × ℕ × ℚ) ℕ) :=
  .noise ⟨.gaussian, some 2, some 1, 2⟩ usersPerDay :: (exampleCalls.map .call ++ [.noise ⟨.laplace, some 2, some 1, 1⟩ usersPerDay])

/-- The hypotheses of C73 hold for this pipeline with total budget (1, 1/1000) and announced weights, on every dataset, for every
user. -/
example (fmt : ℚ → String) (data : List (ℕ × ℕ × ℚ)) (u : ℕ) :
    ∃ s0 bs ops, Budget.init 1 (1 / 1000) none (some [2, 1, 2, 2, 1, 1]) = .ok s0 ∧ planSteps fmt [] exampleSteps = .ok (bs, ops) ∧
      bs.length = 6 ∧
      let s := specOf (Budget.step (Budget.run s0 ops).1 .compute).1
      ∃ L L' : Unit → List (List (Candidate ℕ)),
        (∀ ω, evalSteps exampleLibrary.sigma s (fun _ => exampleEnv firstRng) Prod.fst data 0 exampleSteps bs = .ok (L ω) ∧
          evalSteps exampleLibrary.sigma s (fun _ => exampleEnv firstRng) Prod.fst (data.filter fun r => r.1 ≠ u) 0 exampleSteps bs
            = .ok (L' ω)) ∧
        ∀ (U : Finset (ℕ × ℕ)) (S : Finset (ℕ × ℕ)), ∀ A, MeasurableSet A →
          observedLaw exampleLibrary U S (L ()) A
            ≤ ENNReal.ofReal (Real.exp 1) * observedLaw exampleLibrary U S (L' ()) A + ENNReal.ofReal (1 / 1000) := by
  obtain ⟨s0, h0⟩ : ∃ s0, Budget.init 1 (1 / 1000) none (some [2, 1, 2, 2, 1, 1]) = .ok s0 := by
    norm_num [Budget.init]
  have hsup : ∀ c ∈ exampleSteps, c.Supported := by
    intro c hc
    simp only [exampleSteps, List.mem_cons, List.mem_append, List.mem_map, List.not_mem_nil, or_false] at hc
    rcases hc with rfl | ⟨c, hc, rfl⟩ | rfl
    · exact ⟨⟨2, rfl, by norm_num⟩, ⟨1, rfl, by norm_num⟩, by norm_num⟩
    · exact exampleCalls_supported c hc
    · exact ⟨⟨2, rfl, by norm_num⟩, ⟨1, rfl, by norm_num⟩, by norm_num⟩
  obtain ⟨bs, ops, hp, -, hc⟩ := C73_supported_pipeline_runs fmt exampleSteps hsup h0
    (fun _ => by norm_num) ⟨by simp, by intro l hl; cases hl; rfl⟩
  refine ⟨s0, bs, ops, h0, hp, ?_, ?_⟩
  · obtain ⟨-, new, -, -, h, -⟩ := planSteps_spec hsup hp
    rw [← h.length_eq]
    rfl
  obtain ⟨L, L', h1, h2⟩ := C73_mixed_pipeline_is_differentially_private fmt exampleLibrary exampleLibrary_contract h0 exampleSteps
    hsup (fun _ => by norm_num) hp hc (Measure.dirac ()) (fun _ _ => exampleEnv firstRng) (fun _ _ => exampleEnv_lawful _)
    Prod.fst data u (by
      intro c hc
      simp only [exampleSteps, List.mem_cons, List.mem_append, List.mem_map, List.not_mem_nil, or_false] at hc
      rcases hc with rfl | ⟨c, hc, rfl⟩ | rfl
      · exact usersPerDay_sensitive _ _ data u
      · show Call.Promised Prod.fst data u c
        simp only [exampleCalls, List.mem_cons, List.not_mem_nil, or_false] at hc
        rcases hc with rfl | rfl | rfl | rfl
        · exact ⟨⟨fun h => by simp [examplePrivate] at h, fun h => by simp [examplePrivate] at h⟩,
            fun h => by simp [examplePrivate] at h⟩
        · exact ⟨⟨fun h => by simp [exampleThresholded] at h, fun h => by simp [exampleThresholded] at h⟩,
            fun h => by simp [exampleThresholded] at h⟩
        · exact ⟨⟨fun h => by simp [exampleVariance] at h, fun h => by simp [exampleVariance] at h⟩,
            fun h => by simp [exampleVariance] at h⟩
        · trivial
      · exact usersPerDay_sensitive _ _ data u)
  refine ⟨L, L', h1, fun U S A hA => ?_⟩
  have := ((h2 U S).2 A hA).1
  simpa using this

end PDP.EndToEnd
