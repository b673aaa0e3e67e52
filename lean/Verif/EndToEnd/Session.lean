import Verif.EndToEnd.AdaptiveMixed

/-!
# Pipelines chosen after looking at the results of earlier ones (C89)

A user runs a pipeline with its own accountant, looks at the results, and then decides what to run next: which calls, with which
parameters, partitions and budgets.  Within one pipeline this is not possible, since its graph and its budgets are fixed before
anything is computed (`budget_accounting.py:333-408`); a decision needs a new `NaiveBudgetAccountant` (`budget_accounting.py:301-331`)
and a new `DPEngine` (`dp_engine.py:34-38`).
-/

set_option linter.unusedSectionVars false

namespace PDP.EndToEnd

open PDP PDP.Engine MeasureTheory
open PDP.Engine.AddNoise (specOf)
open PDP.Approx (Indist)

variable {R P K D : Type} [DecidableEq P] [DecidableEq K]

/-! ### Model -/

/-- A pipeline on its own accountant: the arguments of `NaiveBudgetAccountant` and the steps, as in C73. -/
structure Pipeline (R K : Type) where
  eps : ℚ
  delta : ℚ
  num : Option ℤ := none
  weights : Option (List ℚ) := none
  steps : List (Step R K)

/-- What a pipeline may release: the accountant is created, the steps are called, `compute_budgets()` is called, and the graph is
evaluated; nothing is released if one of these raises.  (Whether a call on the accountant raises is not looked at here; it does not for
supported steps, C73.) -/
noncomputable def Pipeline.candidates (fmt : ℚ → String) (sigma : ℝ → ℝ → ℝ → ℝ) (env : ℕ → Env K) (pid : R → P) (data : List R)
    (p : Pipeline R K) : List (List (Candidate K)) :=
  match Budget.init p.eps p.delta p.num p.weights, planSteps fmt [] p.steps with
  | .ok s0, .ok (bs, ops) =>
    match Budget.step (Budget.run s0 ops).1 .compute with
    | (s, .unit) => orNone (evalSteps sigma (specOf s) env pid data 0 p.steps bs)
    | _ => []
  | _, _ => []

/-- `n` pipelines; each is chosen by the decision that was taken after the one before. -/
inductive Session (R K D : Type) : ℕ → Type where
  | done : Session R K D 0
  | run {n : ℕ} (pipeline : Pipeline R K) (next : D → Session R K D n) : Session R K D (n + 1)

/-- The pipelines, if `t` are the decisions. -/
def Session.path {n : ℕ} : Session R K D n → (t : ℕ → D) → List (Pipeline R K)
  | .done, _ => []
  | .run p next, t => p :: (next (t 0)).path fun i => t (i + 1)

/-- First `x` is drawn from `law`, then `y` from `next (f x)`. -/
noncomputable def chooseLaw {X Y : Type} [MeasurableSpace X] [MeasurableSpace Y] (law : Measure X) (f : X → D) (next : D → Measure Y) :
    Measure (X × Y) :=
  Measure.sum fun t => (law.restrict {x | f x = t}).prod (next t)

/-- Distribution of all that a session releases.  `look` are the decisions of the user: from what was seen of the last pipeline, the
released partitions and all their noisy numbers, and the decisions before (`before`, last first).  `env` are the random choices of
contribution bounding and of the runner in each pipeline. -/
noncomputable def sessionLaw (fmt : ℚ → String) (lib : Library) (env : List D → ℕ → Env K) (pid : R → P) (data : List R)
    (U : Finset (ℕ × K)) (S : Finset (ℕ × ℕ)) (look : List D → Seen U S → D) : {n : ℕ} → Session R K D n → (before : List D) →
    Measure (Trace U S n)
  | _, .done, _ => (Measure.dirac () : Measure Unit)
  | _, .run (n := n) p next, before =>
    chooseLaw (Y := Trace U S n) (observedLaw lib U S (p.candidates fmt lib.sigma (env before) pid data)) (look before)
      fun t => sessionLaw fmt lib env pid data U S look (next t) (t :: before)

/-! ### Specification -/

/-- All decisions can be measured. -/
def Measured {U : Finset (ℕ × K)} {S : Finset (ℕ × ℕ)} (look : List D → Seen U S → D) : Prop :=
  ∀ before t, MeasurableSet {x | look before x = t}

/-- Every pipeline that may be chosen has the property `q`. -/
def Session.All (q : Pipeline R K → Prop) {n : ℕ} (s : Session R K D n) : Prop :=
  ∀ t, ∀ p ∈ s.path t, q p

/-- A pipeline that is shown to be private: the budget is valid, the steps are supported, the announcements fit. -/
structure Pipeline.Supported (p : Pipeline R K) : Prop where
  budget : ∃ s0, Budget.init p.eps p.delta p.num p.weights = .ok s0
  steps : ∀ c ∈ p.steps, c.Supported
  delta : (∃ c ∈ p.steps, c.NeedsDelta) → 0 < p.delta
  announced : AnnouncedSteps p.num p.weights p.steps

/-- Whatever is decided, the budgets of the pipelines add up to at most `(e, d)`. -/
def Session.Within (e d : ℚ) {n : ℕ} (s : Session R K D n) : Prop :=
  ∀ t, ((s.path t).map Pipeline.eps).sum ≤ e ∧ ((s.path t).map Pipeline.delta).sum ≤ d

/-! ### Adaptive composition for countably many decisions -/

section
variable {X Y : Type} [MeasurableSpace X] [MeasurableSpace Y] [Countable D]

theorem indicator_tsum {f : X → D} (g : D → X → ENNReal) (x : X) :
    g (f x) x = ∑' t, ({x | f x = t} : Set X).indicator (g t) x := by
  classical
  rw [tsum_eq_single (f x)]
  · simp
  · intro t ht
    rw [Set.indicator_of_notMem]
    exact fun h => ht h.symm

theorem chooseLaw_apply (law : Measure X) {f : X → D} (hf : ∀ t, MeasurableSet {x | f x = t}) (next : D → Measure Y)
    [∀ t, SFinite (next t)] {A : Set (X × Y)} (hA : MeasurableSet A) :
    chooseLaw law f next A = ∫⁻ x, next (f x) (Prod.mk x ⁻¹' A) ∂law := by
  have hm : ∀ t, Measurable fun x => next t (Prod.mk x ⁻¹' A) := fun t => measurable_measure_prodMk_left hA
  rw [lintegral_congr fun x => indicator_tsum (f := f) (fun t x => next t (Prod.mk x ⁻¹' A)) x,
    lintegral_tsum fun t => ((hm t).indicator (hf t)).aemeasurable, chooseLaw, Measure.sum_apply _ hA]
  refine tsum_congr fun t => ?_
  rw [Measure.prod_apply hA, lintegral_indicator (hf t)]

theorem chooseLaw_prob (law : Measure X) [IsProbabilityMeasure law] {f : X → D} (hf : ∀ t, MeasurableSet {x | f x = t})
    (next : D → Measure Y) [∀ t, IsProbabilityMeasure (next t)] : IsProbabilityMeasure (chooseLaw law f next) := by
  constructor
  rw [chooseLaw_apply law hf next MeasurableSet.univ]
  simp

theorem chooseLaw_indist {e₁ d₁ e₂ d₂ : ℝ} {μ ν : Measure X} [IsProbabilityMeasure μ] {f : X → D}
    (hf : ∀ t, MeasurableSet {x | f x = t}) {μ' ν' : D → Measure Y} [∀ t, IsProbabilityMeasure (μ' t)]
    [∀ t, IsProbabilityMeasure (ν' t)] (h₁ : Indist e₁ d₁ μ ν) (h₂ : ∀ t, Indist e₂ d₂ (μ' t) (ν' t)) (hd₁ : 0 ≤ d₁)
    (hd₂ : 0 ≤ d₂) : Indist (e₁ + e₂) (d₁ + d₂) (chooseLaw μ f μ') (chooseLaw ν f ν') := by
  intro A hA
  rw [chooseLaw_apply μ hf μ' hA, chooseLaw_apply ν hf ν' hA]
  set E₁ := ENNReal.ofReal (Real.exp e₁)
  set E₂ := ENNReal.ofReal (Real.exp e₂)
  have hm : ∀ t, Measurable fun x => ν' t (Prod.mk x ⁻¹' A) := fun t => measurable_measure_prodMk_left hA
  have hms : Measurable fun x => ν' (f x) (Prod.mk x ⁻¹' A) := by
    rw [show (fun x => ν' (f x) (Prod.mk x ⁻¹' A))
        = fun x => ∑' t, ({x | f x = t} : Set X).indicator (fun x => ν' t (Prod.mk x ⁻¹' A)) x from
      funext fun x => indicator_tsum (f := f) (fun t x => ν' t (Prod.mk x ⁻¹' A)) x]
    exact Measurable.ennreal_tsum fun t => (hm t).indicator (hf t)
  have hmm : Measurable fun x => min 1 (E₂ * ν' (f x) (Prod.mk x ⁻¹' A)) := measurable_const.min (hms.const_mul _)
  have step : ∀ x, μ' (f x) (Prod.mk x ⁻¹' A) ≤ min 1 (E₂ * ν' (f x) (Prod.mk x ⁻¹' A)) + ENNReal.ofReal d₂ := by
    intro x
    have a1 := h₂ (f x) _ (measurable_prodMk_left (x := x) hA)
    have a2 : μ' (f x) (Prod.mk x ⁻¹' A) ≤ 1 := prob_le_one
    rcases le_total 1 (E₂ * ν' (f x) (Prod.mk x ⁻¹' A)) with h | h
    · rw [min_eq_left h]; exact a2.trans le_self_add
    · rw [min_eq_right h]; exact a1
  calc ∫⁻ x, μ' (f x) (Prod.mk x ⁻¹' A) ∂μ
      ≤ ∫⁻ x, (min 1 (E₂ * ν' (f x) (Prod.mk x ⁻¹' A)) + ENNReal.ofReal d₂) ∂μ := lintegral_mono step
    _ = ∫⁻ x, min 1 (E₂ * ν' (f x) (Prod.mk x ⁻¹' A)) ∂μ + ENNReal.ofReal d₂ := by
        rw [lintegral_add_right _ measurable_const]; simp
    _ ≤ E₁ * ∫⁻ x, min 1 (E₂ * ν' (f x) (Prod.mk x ⁻¹' A)) ∂ν + ENNReal.ofReal d₁ + ENNReal.ofReal d₂ := by
        gcongr
        exact h₁.lintegral hmm fun x => min_le_left _ _
    _ ≤ E₁ * ∫⁻ x, E₂ * ν' (f x) (Prod.mk x ⁻¹' A) ∂ν + ENNReal.ofReal d₁ + ENNReal.ofReal d₂ := by
        gcongr
        exact min_le_right _ _
    _ = ENNReal.ofReal (Real.exp (e₁ + e₂)) * ∫⁻ x, ν' (f x) (Prod.mk x ⁻¹' A) ∂ν + ENNReal.ofReal (d₁ + d₂) := by
        rw [lintegral_const_mul _ hms, ← mul_assoc, ← ENNReal.ofReal_mul (Real.exp_nonneg _), ← Real.exp_add,
          ENNReal.ofReal_add hd₁ hd₂, add_assoc]
end

/-! ### One pipeline -/

theorem init_bounds {e d : ℚ} {num ws s0} (h : Budget.init e d num ws = .ok s0) : 0 < e ∧ 0 ≤ d := by
  unfold Budget.init at h
  split_ifs at h with h1 h2
  exact ⟨not_le.mp h1, not_lt.mp fun h' => h2 (.inl h')⟩

/-- What a supported pipeline releases is what its steps release on an accountant with the budget of the pipeline. -/
theorem candidates_eq (fmt : ℚ → String) {p : Pipeline R K} (hp : p.Supported) :
    ∃ s0 bs ops, Budget.init p.eps p.delta p.num p.weights = .ok s0 ∧ planSteps fmt [] p.steps = .ok (bs, ops) ∧
      (Budget.step (Budget.run s0 ops).1 .compute).2 = .unit ∧ (∀ err, Budget.Out.raised err ∉ (Budget.run s0 ops).2) ∧
      ∀ (sigma : ℝ → ℝ → ℝ → ℝ) (env : ℕ → Env K) (pid : R → P) (data : List R), p.candidates fmt sigma env pid data
        = orNone (evalSteps sigma (specOf (Budget.step (Budget.run s0 ops).1 .compute).1) env pid data 0 p.steps bs) := by
  obtain ⟨s0, h0⟩ := hp.budget
  obtain ⟨bs, ops, h1, h2, h3⟩ := C73_supported_pipeline_runs fmt p.steps hp.steps h0 hp.delta hp.announced
  refine ⟨s0, bs, ops, h0, h1, h3, h2, fun sigma env pid data => ?_⟩
  unfold Pipeline.candidates
  rw [h0, h1]
  dsimp only
  rcases hr : Budget.step (Budget.run s0 ops).1 .compute with ⟨s, o⟩
  rw [hr] at h3
  dsimp only at h3
  subst h3
  rfl

theorem one_pipeline_indist (fmt : ℚ → String) (lib : Library) (hlib : lib.Contract) {p : Pipeline R K} (hp : p.Supported)
    (env : ℕ → Env K) (henv : ∀ j, (env j).Lawful) (pid : R → P) (data : List R) (u : P) (hu : ∀ c ∈ p.steps, c.Promised pid data u)
    (U : Finset (ℕ × K)) (S : Finset (ℕ × ℕ)) :
    let law := observedLaw lib U S (p.candidates fmt lib.sigma env pid data)
    let law' := observedLaw lib U S (p.candidates fmt lib.sigma env pid (data.filter fun r => pid r ≠ u))
    IsProbabilityMeasure law ∧ IsProbabilityMeasure law' ∧ Indist p.eps p.delta law law' ∧ Indist p.eps p.delta law' law := by
  obtain ⟨s0, bs, ops, h0, h1, h2, -, h4⟩ := candidates_eq (P := P) fmt hp
  obtain ⟨L, L', a1, a2⟩ := C73_mixed_pipeline_is_differentially_private fmt lib hlib h0 p.steps hp.steps hp.delta h1 h2
    (Measure.dirac ()) (fun _ => env) (fun _ => henv) pid data u hu
  obtain ⟨b1, b2⟩ := a2 U S
  intro law law'
  have e1 : law = observedLaw lib U S (L ()) := by
    show observedLaw lib U S _ = _
    rw [h4, (a1 ()).1]; rfl
  have e2 : law' = observedLaw lib U S (L' ()) := by
    show observedLaw lib U S _ = _
    rw [h4, (a1 ()).2]; rfl
  rw [e1, e2]
  refine ⟨(b1 ()).1, (b1 ()).2, fun A hA => ?_, fun A hA => ?_⟩
  · have := (b2 A hA).1; simpa using this
  · have := (b2 A hA).2; simpa using this

/-! ### Sessions -/

theorem session_all_head {q : Pipeline R K → Prop} [Nonempty D] {n : ℕ} {p : Pipeline R K} {next : D → Session R K D n}
    (h : (Session.run p next).All q) : q p := by
  obtain ⟨t⟩ := ‹Nonempty D›
  exact h (fun _ => t) p (by simp [Session.path])

/-- The decisions `t` and then those of `t'`. -/
def consDecision (t : D) (t' : ℕ → D) : ℕ → D
  | 0 => t
  | i + 1 => t' i

theorem session_path_cons {n : ℕ} (p : Pipeline R K) (next : D → Session R K D n) (t : D) (t' : ℕ → D) :
    (Session.run p next).path (consDecision t t') = p :: (next t).path t' := rfl

theorem session_all_next {q : Pipeline R K → Prop} {n : ℕ} {p : Pipeline R K} {next : D → Session R K D n}
    (h : (Session.run p next).All q) (t : D) : (next t).All q := by
  intro t' p' hp'
  exact h (consDecision t t') p' (by rw [session_path_cons]; exact List.mem_cons_of_mem _ hp')

theorem session_within_next {e d : ℚ} {n : ℕ} {p : Pipeline R K} {next : D → Session R K D n} (h : (Session.run p next).Within e d)
    (t : D) : (next t).Within (e - p.eps) (d - p.delta) := by
  intro t'
  have := h (consDecision t t')
  rw [session_path_cons] at this
  simp only [List.map_cons, List.sum_cons] at this
  exact ⟨by linarith [this.1], by linarith [this.2]⟩

theorem sum_nonneg_of {l : List (Pipeline R K)} {f : Pipeline R K → ℚ} (h : ∀ p ∈ l, 0 ≤ f p) : 0 ≤ (l.map f).sum := by
  refine List.sum_nonneg fun x hx => ?_
  obtain ⟨p, hp, rfl⟩ := List.mem_map.mp hx
  exact h p hp

theorem session_rest_nonneg [Nonempty D] {e d : ℚ} {n : ℕ} {s : Session R K D n} (hs : s.All Pipeline.Supported) (h : s.Within e d) :
    0 ≤ e ∧ 0 ≤ d := by
  obtain ⟨t⟩ := ‹Nonempty D›
  have := h fun _ => t
  refine ⟨(sum_nonneg_of fun p hp => ?_).trans this.1, (sum_nonneg_of fun p hp => ?_).trans this.2⟩
  · obtain ⟨s0, h0⟩ := (hs _ p hp).budget
    exact (init_bounds h0).1.le
  · obtain ⟨s0, h0⟩ := (hs _ p hp).budget
    exact (init_bounds h0).2

theorem session_indist [Countable D] [Nonempty D] (fmt : ℚ → String) (lib : Library) (hlib : lib.Contract)
    (env : List D → ℕ → Env K) (henv : ∀ h j, (env h j).Lawful) (pid : R → P) (data : List R) (u : P)
    (U : Finset (ℕ × K)) (S : Finset (ℕ × ℕ)) (look : List D → Seen U S → D) (hlook : Measured look) {n : ℕ}
    (s : Session R K D n) : ∀ {e d : ℚ} (before : List D), s.All Pipeline.Supported →
    (s.All fun p => ∀ c ∈ p.steps, c.Promised pid data u) → s.Within e d →
    let law := sessionLaw fmt lib env pid data U S look s before
    let law' := sessionLaw fmt lib env pid (data.filter fun r => pid r ≠ u) U S look s before
    IsProbabilityMeasure law ∧ IsProbabilityMeasure law' ∧ Indist e d law law' ∧ Indist e d law' law := by
  induction s with
  | done =>
    intro e d before hs _ hw law law'
    have he := session_rest_nonneg hs hw
    have hp : IsProbabilityMeasure (Measure.dirac () : Measure Unit) := inferInstance
    have hi : Indist (e : ℝ) (d : ℝ) (Measure.dirac () : Measure Unit) (Measure.dirac ()) :=
      (Approx.Indist.refl _).mono (by exact_mod_cast he.1) (by exact_mod_cast he.2)
    exact ⟨hp, hp, hi, hi⟩
  | @run n p next ih =>
    intro e d before hs hu hw law law'
    have hsp := session_all_head hs
    obtain ⟨s0, h0⟩ := hsp.budget
    have hb := init_bounds h0
    obtain ⟨p1, p2, i1, i2⟩ := one_pipeline_indist fmt lib hlib hsp (env before) (henv before) pid data u (session_all_head hu) U S
    have rest := fun t => ih t (t :: before) (session_all_next hs t) (session_all_next hu t) (session_within_next hw t)
    have q1 := fun t => (rest t).1
    have q2 := fun t => (rest t).2.1
    have hrest : 0 ≤ d - p.delta := by
      obtain ⟨t⟩ := ‹Nonempty D›
      exact (session_rest_nonneg (session_all_next hs t) (session_within_next hw t)).2
    have hd1 : (0 : ℝ) ≤ (p.delta : ℚ) := by exact_mod_cast hb.2
    have hd2 : (0 : ℝ) ≤ ((d - p.delta : ℚ) : ℝ) := by exact_mod_cast hrest
    have he : (p.eps : ℝ) + ((e - p.eps : ℚ) : ℝ) = e := by push_cast; ring
    have hd : (p.delta : ℝ) + ((d - p.delta : ℚ) : ℝ) = d := by push_cast; ring
    refine ⟨chooseLaw_prob _ (hlook before) _, chooseLaw_prob _ (hlook before) _, ?_, ?_⟩
    · have := chooseLaw_indist (hlook before) i1 (fun t => (rest t).2.2.1) hd1 hd2
      rw [he, hd] at this
      exact this
    · have := chooseLaw_indist (hlook before) i2 (fun t => (rest t).2.2.2) hd1 hd2
      rw [he, hd] at this
      exact this

/-! ### Properties -/

/-- **C89.**  A user runs pipelines one after the other, each with its own accountant, and chooses every pipeline (steps, parameters,
partitions and budget) from all that was released before, including the noisy numbers.  If, whatever is decided, the budgets add up to
at most `(e, d)`, then all that is released together is `(e, d)`-differentially private with respect to one privacy id. -/
theorem C89_session_is_differentially_private [Countable D] [Nonempty D] (fmt : ℚ → String) (lib : Library) (hlib : lib.Contract)
    {n : ℕ} (s : Session R K D n) (hs : s.All Pipeline.Supported) {e d : ℚ} (hw : s.Within e d)
    {Ω : Type} [MeasurableSpace Ω] (μ : Measure Ω) [IsProbabilityMeasure μ] (env : Ω → List D → ℕ → Env K)
    (henv : ∀ ω h j, (env ω h j).Lawful) (pid : R → P) (data : List R) (u : P)
    (hu : s.All fun p => ∀ c ∈ p.steps, c.Promised pid data u) (U : Finset (ℕ × K)) (S : Finset (ℕ × ℕ))
    (look : List D → Seen U S → D) (hlook : Measured look) :
    let law := fun ω => sessionLaw fmt lib (env ω) pid data U S look s []
    let law' := fun ω => sessionLaw fmt lib (env ω) pid (data.filter fun r => pid r ≠ u) U S look s []
    (∀ ω, IsProbabilityMeasure (law ω) ∧ IsProbabilityMeasure (law' ω)) ∧
    ∀ A, MeasurableSet A →
      ∫⁻ ω, law ω A ∂μ ≤ ENNReal.ofReal (Real.exp e) * ∫⁻ ω, law' ω A ∂μ + ENNReal.ofReal d ∧
      ∫⁻ ω, law' ω A ∂μ ≤ ENNReal.ofReal (Real.exp e) * ∫⁻ ω, law ω A ∂μ + ENNReal.ofReal d := by
  intro law law'
  have key := fun ω => session_indist fmt lib hlib (env ω) (henv ω) pid data u U S look hlook s [] hs hu hw
  refine ⟨fun ω => ⟨(key ω).1, (key ω).2.1⟩, fun A hA => ?_⟩
  have fin : ∀ f g : Ω → ENNReal, (∀ ω, f ω ≤ ENNReal.ofReal (Real.exp e) * g ω + ENNReal.ofReal d) →
      ∫⁻ ω, f ω ∂μ ≤ ENNReal.ofReal (Real.exp e) * ∫⁻ ω, g ω ∂μ + ENNReal.ofReal d := by
    intro f g hfg
    refine (lintegral_mono hfg).trans ?_
    rw [lintegral_add_right _ measurable_const, lintegral_const_mul' _ _ ENNReal.ofReal_ne_top]
    simp
  exact ⟨fin _ _ fun ω => (key ω).2.2.1 A hA, fin _ _ fun ω => (key ω).2.2.2 A hA⟩

/-- **C89** (what is computed).  A supported pipeline runs on its own accountant with its own budget: no call on the accountant raises,
the steps are evaluated with the budgets that this accountant has computed, and this does not raise. -/
theorem C89_every_pipeline_has_its_own_accountant (fmt : ℚ → String) (lib : Library) (hlib : lib.Contract) {p : Pipeline R K}
    (hp : p.Supported) :
    ∃ s0 bs ops, Budget.init p.eps p.delta p.num p.weights = .ok s0 ∧ planSteps fmt [] p.steps = .ok (bs, ops) ∧
      (∀ err, Budget.Out.raised err ∉ (Budget.run s0 ops).2) ∧ (Budget.step (Budget.run s0 ops).1 .compute).2 = .unit ∧
      ∀ (env : ℕ → Env K) (pid : R → P) (data : List R) (u : P), (∀ j, (env j).Lawful) → (∀ c ∈ p.steps, c.Promised pid data u) →
        evalSteps lib.sigma (specOf (Budget.step (Budget.run s0 ops).1 .compute).1) env pid data 0 p.steps bs
          = .ok (p.candidates fmt lib.sigma env pid data) ∧
        evalSteps lib.sigma (specOf (Budget.step (Budget.run s0 ops).1 .compute).1) env pid (data.filter fun r => pid r ≠ u) 0
            p.steps bs
          = .ok (p.candidates fmt lib.sigma env pid (data.filter fun r => pid r ≠ u)) := by
  obtain ⟨s0, bs, ops, h0, h1, h2, h3, h4⟩ := candidates_eq (P := P) fmt hp
  refine ⟨s0, bs, ops, h0, h1, h3, h2, fun env pid data u henv hu => ?_⟩
  obtain ⟨L, L', a1, -⟩ := C73_mixed_pipeline_is_differentially_private fmt lib hlib h0 p.steps hp.steps hp.delta h1 h2
    (Measure.dirac ()) (fun _ => env) (fun _ => henv) pid data u hu
  rw [h4, h4, (a1 ()).1, (a1 ()).2]
  exact ⟨rfl, rfl⟩

/-- **C89** (what is decided).  The next pipeline of a session is the one for the decision that the user takes from what was seen of the
last one, and the rest of the session is distributed accordingly. -/
theorem C89_next_pipeline_is_chosen_from_results [Countable D] [Nonempty D] (fmt : ℚ → String) (lib : Library) (hlib : lib.Contract)
    {n : ℕ} (p : Pipeline R K) (next : D → Session R K D n) (hs : (Session.run p next).All Pipeline.Supported)
    (env : List D → ℕ → Env K) (henv : ∀ h j, (env h j).Lawful) (pid : R → P) (data : List R) (u : P)
    (hu : (Session.run p next).All fun p => ∀ c ∈ p.steps, c.Promised pid data u) {e d : ℚ} (hw : (Session.run p next).Within e d)
    (U : Finset (ℕ × K)) (S : Finset (ℕ × ℕ)) (look : List D → Seen U S → D) (hlook : Measured look) (before : List D)
    {A : Set (Seen U S × Trace U S n)} (hA : MeasurableSet A) :
    sessionLaw fmt lib env pid data U S look (.run p next) before A
      = ∫⁻ x, sessionLaw fmt lib env pid data U S look (next (look before x)) (look before x :: before) {y | (x, y) ∈ A}
          ∂(observedLaw lib U S (p.candidates fmt lib.sigma (env before) pid data)) := by
  have rest := fun t => (session_indist fmt lib hlib env henv pid data u U S look hlook (next t) (t :: before) (session_all_next hs t)
    (session_all_next hu t) (session_within_next hw t)).1
  exact chooseLaw_apply _ (hlook before) _ hA

/-- `U` and `S` contain all that may be released in the session, whatever is decided. -/
def Session.Covered (fmt : ℚ → String) (lib : Library) (env : List D → ℕ → Env K) (pid : R → P) (data : List R)
    (U : Finset (ℕ × K)) (S : Finset (ℕ × ℕ)) : {n : ℕ} → Session R K D n → (before : List D) → Prop
  | _, .done, _ => True
  | _, .run p next, before =>
    (∀ j, ∀ c ∈ (p.candidates fmt lib.sigma (env before) pid data).getD j [], (j, c.key) ∈ U ∧
      decisionLaw lib ((p.candidates fmt lib.sigma (env before) pid data).getD j []) c.key = c.gate.law lib ∧
      ∀ n ∈ c.numbers, (n.spec, n.comp) ∈ S ∧
        numberLaw ((p.candidates fmt lib.sigma (env before) pid data).getD j []) c.key (n.spec, n.comp) = n.law) ∧
    ∀ t, (next t).Covered fmt lib env pid data U S (t :: before)

theorem sessionCovered_mono {fmt : ℚ → String} {lib : Library} {env : List D → ℕ → Env K} {pid : R → P} {data : List R}
    {U U' : Finset (ℕ × K)} {S S' : Finset (ℕ × ℕ)} (hU : U ⊆ U') (hS : S ⊆ S') {n : ℕ} (s : Session R K D n) :
    ∀ before, s.Covered fmt lib env pid data U S before → s.Covered fmt lib env pid data U' S' before := by
  induction s with
  | done => intro _ _; trivial
  | run p next ih =>
    intro before h
    refine ⟨fun j c hc => ?_, fun t => ih t _ (h.2 t)⟩
    obtain ⟨g1, g2, g3⟩ := h.1 j c hc
    exact ⟨hU g1, g2, fun n hn => ⟨hS (g3 n hn).1, (g3 n hn).2⟩⟩

/-- **C89** (nothing is left out).  If there are finitely many decisions, there are finite sets `U` and `S` which contain all that the
session may release, whatever is decided, on the dataset and on the one without the privacy id, however the pipelines are executed. -/
theorem C89_everything_is_observed [Finite D] [Nonempty D] (fmt : ℚ → String) (lib : Library) (hlib : lib.Contract) (pid : R → P)
    (data : List R) (u : P) {n : ℕ} (s : Session R K D n) (hs : s.All Pipeline.Supported)
    (hu : s.All fun p => ∀ c ∈ p.steps, c.Promised pid data u) :
    ∃ (U : Finset (ℕ × K)) (S : Finset (ℕ × ℕ)), ∀ env : List D → ℕ → Env K, (∀ h j, (env h j).Lawful) →
      ∀ data' : List R, data' = data ∨ data' = (data.filter fun r => pid r ≠ u) → ∀ before,
        s.Covered fmt lib env pid data' U S before := by
  classical
  cases nonempty_fintype D
  induction s with
  | done => exact ⟨∅, ∅, fun _ _ _ _ _ => trivial⟩
  | @run n p next ih =>
    choose U S h using fun t => ih t (session_all_next hs t) (session_all_next hu t)
    have hsp := session_all_head hs
    have hup := session_all_head hu
    obtain ⟨s0, bs, ops, h0, h1, h2, h3, h4⟩ := C89_every_pipeline_has_its_own_accountant (P := P) fmt lib hlib hsp
    obtain ⟨U0, S0, hc⟩ := C73_everything_is_observed fmt lib pid data u p.steps hsp.steps hup h1
    refine ⟨U0 ∪ Finset.univ.biUnion U, S0 ∪ Finset.univ.biUnion S, fun env henv data' hd before => ⟨?_, fun t => ?_⟩⟩
    · have hL : evalSteps lib.sigma (specOf (Budget.step (Budget.run s0 ops).1 .compute).1) (env before) pid data' 0 p.steps bs
          = .ok (p.candidates fmt lib.sigma (env before) pid data') := by
        rcases hd with rfl | rfl
        · exact (h4 _ pid _ u (henv before) hup).1
        · exact (h4 _ pid data u (henv before) hup).2
      intro j c hcm
      obtain ⟨g1, g2, g3⟩ := hc _ (env before) (henv before) data' hd _ hL j c hcm
      exact ⟨Finset.mem_union_left _ g1, g2, fun n hn => ⟨Finset.mem_union_left _ (g3 n hn).1, (g3 n hn).2⟩⟩
    · refine sessionCovered_mono ?_ ?_ (next t) _ (h t env henv data' hd _)
      · exact (Finset.subset_biUnion_of_mem U (Finset.mem_univ t)).trans Finset.subset_union_right
      · exact (Finset.subset_biUnion_of_mem S (Finset.mem_univ t)).trans Finset.subset_union_right

/-! ### A concrete session -/

/-- Laplace noise on the numbers of users of two days. -/
def firstPipeline : Pipeline (ℕ × ℕ × ℚ) ℕ := { eps := 1 / 2, delta := 0, steps := [.noise ⟨.laplace, some 2, some 1, 1⟩ usersPerDay] }

/-- The calls of C73's example with their announced weights, on what is left of the budget. -/
def detailedPipeline : Pipeline (ℕ × ℕ × ℚ) ℕ :=
  { eps := 1 / 2, delta := 1 / 1000, weights := some [2, 1, 2, 2, 1, 1], steps := exampleSteps }

/-- Only the numbers of users once more, with Gaussian noise and less budget. -/
def shortPipeline : Pipeline (ℕ × ℕ × ℚ) ℕ :=
  { eps := 1 / 4, delta := 1 / 2000, steps := [.noise ⟨.gaussian, some 2, some 1, 1⟩ usersPerDay] }

/-- The second pipeline depends on the decision after the first. -/
def exampleSession : Session (ℕ × ℕ × ℚ) ℕ Bool 2 :=
  .run firstPipeline fun many => .run (if many then detailedPipeline else shortPipeline) fun _ => .done

/-- The decision: whether the noisy number of users of day 0 is greater than 100. -/
noncomputable def manyUsers : List Bool → Seen ({(0, 0), (0, 1)} : Finset (ℕ × ℕ)) ({(0, 0)} : Finset (ℕ × ℕ)) → Bool :=
  fun _ x => decide (100 < x.2 (⟨(0, 0), by simp⟩, ⟨(0, 0), by simp⟩))

theorem manyUsers_measured : Measured manyUsers := by
  intro before t
  have hm : Measurable fun x : Seen ({(0, 0), (0, 1)} : Finset (ℕ × ℕ)) ({(0, 0)} : Finset (ℕ × ℕ)) =>
      x.2 (⟨(0, 0), by simp⟩, ⟨(0, 0), by simp⟩) := (measurable_pi_apply _).comp measurable_snd
  have hs : MeasurableSet {x : Seen ({(0, 0), (0, 1)} : Finset (ℕ × ℕ)) ({(0, 0)} : Finset (ℕ × ℕ)) |
      100 < x.2 (⟨(0, 0), by simp⟩, ⟨(0, 0), by simp⟩)} := hm measurableSet_Ioi
  cases t
  · have : {x | manyUsers before x = false} = {x : Seen ({(0, 0), (0, 1)} : Finset (ℕ × ℕ)) ({(0, 0)} : Finset (ℕ × ℕ)) |
        100 < x.2 (⟨(0, 0), by simp⟩, ⟨(0, 0), by simp⟩)}ᶜ := by
      ext x; simp [manyUsers]
    rw [this]; exact hs.compl
  · have : {x | manyUsers before x = true} = {x : Seen ({(0, 0), (0, 1)} : Finset (ℕ × ℕ)) ({(0, 0)} : Finset (ℕ × ℕ)) |
        100 < x.2 (⟨(0, 0), by simp⟩, ⟨(0, 0), by simp⟩)} := by
      ext x; simp [manyUsers]
    rw [this]; exact hs

theorem exampleSteps_supported : ∀ c ∈ exampleSteps, c.Supported := by
  intro c hc
  simp only [exampleSteps, List.mem_cons, List.mem_append, List.mem_map, List.not_mem_nil, or_false] at hc
  rcases hc with rfl | ⟨c, hc, rfl⟩ | rfl
  · exact ⟨⟨2, rfl, by norm_num⟩, ⟨1, rfl, by norm_num⟩, by norm_num⟩
  · exact exampleCalls_supported c hc
  · exact ⟨⟨2, rfl, by norm_num⟩, ⟨1, rfl, by norm_num⟩, by norm_num⟩

theorem exampleSteps_promised (data : List (ℕ × ℕ × ℚ)) (u : ℕ) : ∀ c ∈ exampleSteps, c.Promised Prod.fst data u := by
  intro c hc
  simp only [exampleSteps, List.mem_cons, List.mem_append, List.mem_map, List.not_mem_nil, or_false] at hc
  rcases hc with rfl | ⟨c, hc, rfl⟩ | rfl
  · exact usersPerDay_sensitive _ _ data u
  · show Call.Promised Prod.fst data u c
    simp only [exampleCalls, List.mem_cons, List.not_mem_nil, or_false] at hc
    rcases hc with rfl | rfl | rfl | rfl
    · exact ⟨⟨fun h => by simp [examplePrivate] at h, fun h => by simp [examplePrivate] at h⟩,
        fun h => by simp [examplePrivate] at h⟩
    · exact ⟨⟨fun h => by simp [exampleThresholded] at h, fun h => by simp [exampleThresholded] at h⟩,
        fun h => by simp [exampleThresholded] at h⟩
    · exact ⟨⟨fun h => by simp [exampleVariance] at h, fun h => by simp [exampleVariance] at h⟩,
        fun h => by simp [exampleVariance] at h⟩
    · trivial
  · exact usersPerDay_sensitive _ _ data u

theorem exampleSession_pipelines (t : ℕ → Bool) :
    exampleSession.path t = [firstPipeline, if t 0 then detailedPipeline else shortPipeline] := rfl

theorem exampleSession_supported : exampleSession.All Pipeline.Supported := by
  have h1 : firstPipeline.Supported := by
    refine ⟨by norm_num [Budget.init, firstPipeline], ?_, ?_, by simp [firstPipeline], by simp [firstPipeline]⟩
    · intro c hc
      simp only [firstPipeline, List.mem_singleton] at hc
      rw [hc]
      exact ⟨⟨2, rfl, by norm_num⟩, ⟨1, rfl, by norm_num⟩, by norm_num⟩
    · rintro ⟨c, hc, hn⟩
      simp only [firstPipeline, List.mem_singleton] at hc
      rw [hc] at hn
      exact absurd hn (by simp [Step.NeedsDelta])
  have h2 : detailedPipeline.Supported :=
    ⟨by norm_num [Budget.init, detailedPipeline], exampleSteps_supported, fun _ => by norm_num [detailedPipeline],
      by simp [detailedPipeline], by intro l hl; cases hl; rfl⟩
  have h3 : shortPipeline.Supported := by
    refine ⟨by norm_num [Budget.init, shortPipeline], ?_, fun _ => by norm_num [shortPipeline], by simp [shortPipeline],
      by simp [shortPipeline]⟩
    intro c hc
    simp only [shortPipeline, List.mem_singleton] at hc
    rw [hc]
    exact ⟨⟨2, rfl, by norm_num⟩, ⟨1, rfl, by norm_num⟩, by norm_num⟩
  intro t p hp
  rw [exampleSession_pipelines] at hp
  simp only [List.mem_cons, List.not_mem_nil, or_false] at hp
  rcases hp with rfl | rfl
  · exact h1
  · split
    · exact h2
    · exact h3

theorem exampleSession_promised (data : List (ℕ × ℕ × ℚ)) (u : ℕ) :
    exampleSession.All fun p => ∀ c ∈ p.steps, c.Promised Prod.fst data u := by
  intro t p hp c hc
  rw [exampleSession_pipelines] at hp
  simp only [List.mem_cons, List.not_mem_nil, or_false] at hp
  rcases hp with rfl | rfl
  · simp only [firstPipeline, List.mem_singleton] at hc
    rw [hc]; exact usersPerDay_sensitive _ _ data u
  · split at hc
    · exact exampleSteps_promised data u c hc
    · simp only [shortPipeline, List.mem_singleton] at hc
      rw [hc]; exact usersPerDay_sensitive _ _ data u

theorem exampleSession_within : exampleSession.Within 1 (1 / 1000) := by
  intro t
  rw [exampleSession_pipelines]
  cases t 0 <;> norm_num [firstPipeline, detailedPipeline, shortPipeline]

/-- The session is (1, 1/1000)-private on every dataset, for every user: its first pipeline alone has 1/2, the larger second one the
other half. -/
example (fmt : ℚ → String) (data : List (ℕ × ℕ × ℚ)) (u : ℕ) {A : Set (Trace ({(0, 0), (0, 1)} : Finset (ℕ × ℕ)) {(0, 0)} 2)}
    (hA : MeasurableSet A) :
    sessionLaw fmt exampleLibrary (fun _ _ => exampleEnv firstRng) Prod.fst data _ _ manyUsers exampleSession [] A
      ≤ ENNReal.ofReal (Real.exp 1)
          * sessionLaw fmt exampleLibrary (fun _ _ => exampleEnv firstRng) Prod.fst (data.filter fun r => r.1 ≠ u) _ _ manyUsers
              exampleSession [] A
        + ENNReal.ofReal (1 / 1000) := by
  have := ((C89_session_is_differentially_private fmt exampleLibrary exampleLibrary_contract exampleSession exampleSession_supported
    exampleSession_within (Measure.dirac ()) (fun _ _ _ => exampleEnv firstRng) (fun _ _ _ => exampleEnv_lawful _) Prod.fst data u
    (exampleSession_promised data u) _ _ manyUsers manyUsers_measured).2 A hA).1
  simpa using this

/-- Everything it may release is in finite sets. -/
example (fmt : ℚ → String) (data : List (ℕ × ℕ × ℚ)) (u : ℕ) :
    ∃ (U : Finset (ℕ × ℕ)) (S : Finset (ℕ × ℕ)), ∀ env : List Bool → ℕ → Env ℕ, (∀ h j, (env h j).Lawful) →
      exampleSession.Covered fmt exampleLibrary env Prod.fst data U S [] := by
  obtain ⟨U, S, h⟩ := C89_everything_is_observed fmt exampleLibrary exampleLibrary_contract Prod.fst data u exampleSession
    exampleSession_supported (exampleSession_promised data u)
  exact ⟨U, S, fun env henv => h env henv data (.inl rfl) []⟩

/-- The distribution of the session on some data, with the pipeline chosen after the first result. -/
example (fmt : ℚ → String) (data : List (ℕ × ℕ × ℚ)) {A : Set (Trace ({(0, 0), (0, 1)} : Finset (ℕ × ℕ)) {(0, 0)} 2)}
    (hA : MeasurableSet A) :
    sessionLaw fmt exampleLibrary (fun _ _ => exampleEnv firstRng) Prod.fst data _ _ manyUsers exampleSession [] A
      = ∫⁻ x, sessionLaw fmt exampleLibrary (fun _ _ => exampleEnv firstRng) Prod.fst data _ _ manyUsers
            (.run (if manyUsers [] x then detailedPipeline else shortPipeline) fun _ => .done) [manyUsers [] x] {y | (x, y) ∈ A}
          ∂(observedLaw exampleLibrary _ _ (firstPipeline.candidates fmt exampleLibrary.sigma (fun _ => exampleEnv firstRng)
            Prod.fst data)) :=
  C89_next_pipeline_is_chosen_from_results fmt exampleLibrary exampleLibrary_contract firstPipeline _ exampleSession_supported _
    (fun _ _ => exampleEnv_lawful _) Prod.fst data 0 (exampleSession_promised data 0) exampleSession_within _ _ manyUsers
    manyUsers_measured [] hA

end PDP.EndToEnd
