import Verif.EndToEnd.AdaptiveProps
import Verif.EndToEnd.MixedProps

/-!
# Noise on collections that are computed for the partitions released before (C86)

`add_dp_noise` (`dp_engine.py:553-609`) promises differential privacy for values of given partitions; the keys of its collection
are released as they are.  A user who does not know the partitions selects them first with `select_partitions` (or takes the
partitions that an `aggregate` released), computes a value for each of them, and adds noise to these values: the collection of the
later call depends on what the earlier calls have released.
-/

set_option linter.unusedSectionVars false

namespace PDP.EndToEnd

open PDP PDP.Engine MeasureTheory
open PDP.Engine.AddNoise (specOf)
open PDP.Budget (State Op MechType)
open PDP.Approx (Indist)

variable {R P K : Type} [DecidableEq P] [DecidableEq K]

/-! ### Programs -/

/-- A pipeline in rounds whose steps are calls of `aggregate`, `select_partitions` and `add_dp_noise`
(`dp_engine.py:65-107, 251-283, 553-609`).  The steps of a round see the partitions that the rounds before released, as pairs
(position of the step in its round, partition); in particular the collection given to `add_dp_noise` may be computed for these
partitions. -/
inductive StepProgram (R K : Type) : ℕ → Type where
  | done : StepProgram R K 0
  | round {n : ℕ} (steps : List (Step R K)) (next : Finset (ℕ × K) → StepProgram R K n) : StepProgram R K (n + 1)

/-- The steps of the rounds, if `released` are the partitions released by the rounds. -/
def StepProgram.path {n : ℕ} : StepProgram R K n → (released : ℕ → Finset (ℕ × K)) → List (List (Step R K))
  | .done, _ => []
  | .round cs next, t => cs :: (next (t 0)).path fun i => t (i + 1)

/-- Every step of the program, whatever is released, has the property `q`. -/
def StepProgram.All (q : Step R K → Prop) {n : ℕ} (prog : StepProgram R K n) : Prop :=
  ∀ t, ∀ cs ∈ prog.path t, ∀ c ∈ cs, q c

/-- The graph is built before anything is released: for all outcomes the steps build the same, make the same calls `ops` on the
accountant, and there are as many steps in each round. -/
def StepProgram.Planned (fmt : ℚ → String) {n : ℕ} (prog : StepProgram R K n) (rounds : List (List BuiltStep)) (ops : List Op) :
    Prop :=
  ∀ t, planSteps fmt [] (prog.path t).flatten = .ok (rounds.flatten, ops) ∧
    (prog.path t).map List.length = rounds.map List.length

/-- Distribution of what a program releases, as in C68: the steps of a round are evaluated for the partitions released before. -/
noncomputable def stepProgramLaw (lib : Library) (s : Specs) (env : List (Finset (ℕ × K)) → ℕ → Env K) (pid : R → P)
    (data : List R) (U : Finset (ℕ × K)) (S : Finset (ℕ × ℕ)) : {n : ℕ} → StepProgram R K n →
    (before : List (Finset (ℕ × K))) → List (List BuiltStep) → Measure (Trace U S n)
  | _, .done, _, _ => (Measure.dirac () : Measure Unit)
  | _, .round (n := n) cs next, before, rounds =>
    thenLaw (Y := Trace U S n)
      (observedLaw lib U S (orNone (evalSteps lib.sigma s (env before) pid data 0 cs (rounds.headD []))))
      releasedSet
      fun t => stepProgramLaw lib s env pid data U S (next (t.map (Function.Embedding.subtype _)))
        (t.map (Function.Embedding.subtype _) :: before) rounds.tail

/-- No step raises, whatever is released. -/
def StepProgram.Evaluates (sigma : ℝ → ℝ → ℝ → ℝ) (s : Specs) (env : List (Finset (ℕ × K)) → ℕ → Env K) (pid : R → P)
    (data : List R) : {n : ℕ} → StepProgram R K n → (before : List (Finset (ℕ × K))) → List (List BuiltStep) → Prop
  | _, .done, _, _ => True
  | _, .round cs next, before, rounds =>
    (∃ L, evalSteps sigma s (env before) pid data 0 cs (rounds.headD []) = .ok L) ∧
      ∀ t, (next t).Evaluates sigma s env pid data (t :: before) rounds.tail

/-! ### Lemmas -/

theorem planSteps_length {fmt : ℚ → String} : ∀ {cs : List (Step R K)} {rs : List Request} {bs ops},
    planSteps fmt rs cs = .ok (bs, ops) → bs.length = cs.length := by
  intro cs
  induction cs with
  | nil =>
    intro rs bs ops h
    simp only [planSteps, Except.ok.injEq, Prod.mk.injEq] at h
    rw [← h.1]; rfl
  | cons c cs ih =>
    intro rs bs ops h
    cases c with
    | call c =>
      rw [planSteps] at h
      rcases hx : build fmt rs c with ⟨r, rs'⟩
      rw [hx] at h
      rcases r with e | b
      · simp at h
      · dsimp only at h
        rcases hp : planSteps fmt rs' cs with e | ⟨bs', ops'⟩
        · rw [hp] at h; simp at h
        · rw [hp] at h
          simp only [Except.ok.injEq, Prod.mk.injEq] at h
          rw [← h.1, List.length_cons, List.length_cons, ih hp]
    | noise p f =>
      rw [planSteps] at h
      rcases hm : mkSens (p.l0.map fun x : ℚ => (x : ℝ)) (p.linf.map fun x : ℚ => (x : ℝ)) none none with e | sens
      · rw [hm] at h; cases h
      · rw [hm] at h
        dsimp only at h
        rcases hp : planSteps fmt (requestBudget rs p.kind.mechanism 1).2 cs with e | ⟨bs', ops'⟩
        · rw [hp] at h; simp at h
        · rw [hp] at h
          simp only [Except.ok.injEq, Prod.mk.injEq] at h
          rw [← h.1, List.length_cons, List.length_cons, ih hp]

theorem planSteps_append {fmt : ℚ → String} (cs' : List (Step R K)) : ∀ {cs : List (Step R K)} {rs : List Request} {bs ops},
    planSteps fmt rs (cs ++ cs') = .ok (bs, ops) →
    ∃ bs1 bs2 ops1 ops2 rs', bs = bs1 ++ bs2 ∧ planSteps fmt rs cs = .ok (bs1, ops1) ∧ planSteps fmt rs' cs' = .ok (bs2, ops2) := by
  intro cs
  induction cs with
  | nil =>
    intro rs bs ops h
    exact ⟨[], bs, [], ops, rs, rfl, rfl, h⟩
  | cons c cs ih =>
    intro rs bs ops h
    cases c with
    | call c =>
      rw [List.cons_append, planSteps] at h
      rcases hx : build fmt rs c with ⟨r, rs'⟩
      rw [hx] at h
      rcases r with e | b
      · simp at h
      · dsimp only at h
        rcases hp : planSteps fmt rs' (cs ++ cs') with e | ⟨bs', ops'⟩
        · rw [hp] at h; simp at h
        · rw [hp] at h
          simp only [Except.ok.injEq, Prod.mk.injEq] at h
          obtain ⟨rfl, rfl⟩ := h
          obtain ⟨bs1, bs2, ops1, ops2, rs2, rfl, h1, h2⟩ := ih hp
          exact ⟨.call b :: bs1, bs2, callOps c.weight (rs'.drop rs.length) ++ ops1, ops2, rs2, rfl,
            by rw [planSteps, hx]; simp only [h1], h2⟩
    | noise p f =>
      rw [List.cons_append, planSteps] at h
      rcases hm : mkSens (p.l0.map fun x : ℚ => (x : ℝ)) (p.linf.map fun x : ℚ => (x : ℝ)) none none with e | sens
      · rw [hm] at h; cases h
      · rw [hm] at h
        dsimp only at h
        rcases hp : planSteps fmt (requestBudget rs p.kind.mechanism 1).2 (cs ++ cs') with e | ⟨bs', ops'⟩
        · rw [hp] at h; simp at h
        · rw [hp] at h
          simp only [Except.ok.injEq, Prod.mk.injEq] at h
          obtain ⟨rfl, rfl⟩ := h
          obtain ⟨bs1, bs2, ops1, ops2, rs2, rfl, h1, h2⟩ := ih hp
          exact ⟨.noise (requestBudget rs p.kind.mechanism 1).1 sens :: bs1, bs2, noiseOps p ++ ops1, ops2, rs2, rfl,
            by rw [planSteps, hm]; simp only [h1], h2⟩

theorem forall₂_split {α β : Type} {Q : α → β → Prop} : ∀ {a : List α} {c : List β} {b d}, a.length = c.length →
    List.Forall₂ Q (a ++ b) (c ++ d) → List.Forall₂ Q a c ∧ List.Forall₂ Q b d := by
  intro a
  induction a with
  | nil =>
    intro c b d hl h
    rcases c with _ | ⟨y, c⟩
    · exact ⟨.nil, h⟩
    · simp at hl
  | cons x a ih =>
    intro c b d hl h
    rcases c with _ | ⟨y, c⟩
    · simp at hl
    · rw [List.cons_append, List.cons_append] at h
      cases h with
      | cons h1 h2 =>
        obtain ⟨g1, g2⟩ := ih (by simpa using hl) h2
        exact ⟨.cons h1 g1, g2⟩

/-- The rounds from some round on. -/
theorem stepProgram_rounds {lib : Library} (hlib : lib.Contract) {s : Specs} {ε δ : ℕ → ℝ} {fmt : ℚ → String}
    (env : List (Finset (ℕ × K)) → ℕ → Env K) (henv : ∀ h j, (env h j).Lawful) (pid : R → P) (data : List R) (u : P)
    {n : ℕ} (prog : StepProgram R K n) : prog.All Step.Supported → prog.All (fun c => c.Promised pid data u) →
    ∀ (before : List (Finset (ℕ × K))) (rounds : List (List BuiltStep)),
      (∀ t, (prog.path t).map List.length = rounds.map List.length ∧
        ∃ rs ops, planSteps fmt rs (prog.path t).flatten = .ok (rounds.flatten, ops)) →
      (∀ t, List.Forall₂ (StepOk s ε δ) (prog.path t).flatten rounds.flatten) →
      prog.Evaluates lib.sigma s env pid data before rounds ∧
      prog.Evaluates lib.sigma s env pid (removeId pid u data) before rounds ∧
      0 ≤ ((rounds.flatten.flatMap BuiltStep.specs).map δ).sum ∧
      ∀ (U : Finset (ℕ × K)) (S : Finset (ℕ × ℕ)),
        IsProbabilityMeasure (stepProgramLaw lib s env pid data U S prog before rounds) ∧
        IsProbabilityMeasure (stepProgramLaw lib s env pid (removeId pid u data) U S prog before rounds) ∧
        Indist ((rounds.flatten.flatMap BuiltStep.specs).map ε).sum ((rounds.flatten.flatMap BuiltStep.specs).map δ).sum
          (stepProgramLaw lib s env pid data U S prog before rounds)
          (stepProgramLaw lib s env pid (removeId pid u data) U S prog before rounds) ∧
        Indist ((rounds.flatten.flatMap BuiltStep.specs).map ε).sum ((rounds.flatten.flatMap BuiltStep.specs).map δ).sum
          (stepProgramLaw lib s env pid (removeId pid u data) U S prog before rounds)
          (stepProgramLaw lib s env pid data U S prog before rounds) := by
  induction prog with
  | done =>
    intro _ _ before rounds hp _
    obtain ⟨h1, -⟩ := hp fun _ => ∅
    simp only [StepProgram.path, List.map_nil] at h1
    have : rounds = [] := by
      rcases rounds with _ | ⟨x, l⟩
      · rfl
      · simp at h1
    subst this
    refine ⟨trivial, trivial, by simp, fun U S => ?_⟩
    have hprob : IsProbabilityMeasure (Measure.dirac () : Measure Unit) := inferInstance
    simp only [List.flatten_nil, List.flatMap_nil, List.map_nil, List.sum_nil]
    exact ⟨hprob, hprob, Indist.refl (Measure.dirac () : Measure Unit), Indist.refl (Measure.dirac () : Measure Unit)⟩
  | @round n cs next ih =>
    intro hs hu before rounds hp hbo
    obtain ⟨bs, rest, rfl, hlen⟩ : ∃ bs rest, rounds = bs :: rest ∧ cs.length = bs.length := by
      have h1 := (hp fun _ => ∅).1
      rcases rounds with _ | ⟨bs, rest⟩
      · simp [StepProgram.path] at h1
      · simp only [StepProgram.path, List.map_cons, List.cons.injEq] at h1
        exact ⟨bs, rest, rfl, h1.1⟩
    have hpath : ∀ t0 t, (StepProgram.round cs next).path (fun i => Nat.casesOn i t0 t) = cs :: (next t0).path t := fun _ _ => rfl
    have split : ∀ t0 t, ∃ rs ops rs' ops', planSteps fmt rs cs = .ok (bs, ops) ∧
        planSteps fmt rs' ((next t0).path t).flatten = .ok (rest.flatten, ops') := by
      intro t0 t
      obtain ⟨-, rs, ops, h⟩ := hp (fun i => Nat.casesOn i t0 t)
      rw [hpath, List.flatten_cons, List.flatten_cons] at h
      obtain ⟨bs1, bs2, ops1, ops2, rs', heq, h1, h2⟩ := planSteps_append _ h
      obtain ⟨rfl, rfl⟩ := List.append_inj heq (by rw [planSteps_length h1, hlen])
      exact ⟨rs, ops1, rs', ops2, h1, h2⟩
    have hboth : ∀ t0 t, List.Forall₂ (StepOk s ε δ) cs bs ∧ List.Forall₂ (StepOk s ε δ) ((next t0).path t).flatten rest.flatten := by
      intro t0 t
      have h := hbo (fun i => Nat.casesOn i t0 t)
      rw [hpath, List.flatten_cons, List.flatten_cons] at h
      exact forall₂_split hlen h
    obtain ⟨rs, ops, -, -, hplan, -⟩ := split ∅ fun _ => ∅
    obtain ⟨L, L', a1, a2, a3, a4, p, a5, a6⟩ := steps_pairs hlib (env before) (henv before) pid data u (cs := cs)
      (fun c hc => hs (fun _ => ∅) cs (by simp [StepProgram.path]) c hc)
      (fun c hc => hu (fun _ => ∅) cs (by simp [StepProgram.path]) c hc) 0 hplan (hboth ∅ fun _ => ∅).1
    have hrest := fun t0 => ih t0
      (fun t ds hd c hc => hs (fun i => Nat.casesOn i t0 t) ds (by rw [hpath]; exact List.mem_cons_of_mem _ hd) c hc)
      (fun t ds hd c hc => hu (fun i => Nat.casesOn i t0 t) ds (by rw [hpath]; exact List.mem_cons_of_mem _ hd) c hc)
      (t0 :: before) rest
      (fun t => by
        have h1 := (hp (fun i => Nat.casesOn i t0 t)).1
        rw [hpath, List.map_cons, List.map_cons, List.cons.injEq] at h1
        obtain ⟨-, -, rs', ops', -, h2⟩ := split t0 t
        exact ⟨h1.2, rs', ops', h2⟩)
      (fun t => (hboth t0 t).2)
    have hd1 : 0 ≤ ((bs.flatMap BuiltStep.specs).map δ).sum := by
      refine le_trans (List.sum_nonneg fun x hx => ?_) a6
      obtain ⟨j, -, rfl⟩ := List.mem_map.mp hx
      exact (p j).d_nonneg
    have hd2 := (hrest ∅).2.2.1
    refine ⟨⟨⟨L, a1⟩, fun t => (hrest t).1⟩, ⟨⟨L', a2⟩, fun t => (hrest t).2.1⟩, ?_, fun U S => ?_⟩
    · rw [List.flatten_cons, List.flatMap_append, List.map_append, List.sum_append]
      exact add_nonneg hd1 hd2
    · have q1 := observedLaw_prob p U S
      have q2 := observedLaw_prob (fun j => (p j).swap) U S
      have r1 : ∀ t : Finset U, IsProbabilityMeasure (stepProgramLaw lib s env pid data U S
          (next (t.map (Function.Embedding.subtype _))) (t.map (Function.Embedding.subtype _) :: before) rest) :=
        fun t => ((hrest _).2.2.2 U S).1
      have r2 : ∀ t : Finset U, IsProbabilityMeasure (stepProgramLaw lib s env pid (removeId pid u data) U S
          (next (t.map (Function.Embedding.subtype _))) (t.map (Function.Embedding.subtype _) :: before) rest) :=
        fun t => ((hrest _).2.2.2 U S).2.1
      have e1 : stepProgramLaw lib s env pid data U S (StepProgram.round cs next) before (bs :: rest)
          = thenLaw (observedLaw lib U S L) releasedSet fun t => stepProgramLaw lib s env pid data U S
            (next (t.map (Function.Embedding.subtype _))) (t.map (Function.Embedding.subtype _) :: before) rest := by
        rw [stepProgramLaw, List.headD_cons, a1]
        rfl
      have e2 : stepProgramLaw lib s env pid (removeId pid u data) U S (StepProgram.round cs next) before (bs :: rest)
          = thenLaw (observedLaw lib U S L') releasedSet fun t => stepProgramLaw lib s env pid (removeId pid u data) U S
            (next (t.map (Function.Embedding.subtype _))) (t.map (Function.Embedding.subtype _) :: before) rest := by
        rw [stepProgramLaw, List.headD_cons, a2]
        rfl
      have hsum : ∀ f : ℕ → ℝ, (((bs :: rest).flatten.flatMap BuiltStep.specs).map f).sum
          = ((bs.flatMap BuiltStep.specs).map f).sum + ((rest.flatten.flatMap BuiltStep.specs).map f).sum := by
        intro f
        rw [List.flatten_cons, List.flatMap_append, List.map_append, List.sum_append]
      rw [e1, e2, hsum, hsum]
      refine ⟨thenLaw_prob _ measurableSet_released _, thenLaw_prob _ measurableSet_released _, ?_, ?_⟩
      · exact thenLaw_indist measurableSet_released ((observed_indist cs.length p a3 a4 U S).mono a5 a6)
          (fun t => ((hrest _).2.2.2 U S).2.2.1) hd1 hd2
      · exact thenLaw_indist measurableSet_released
          ((observed_indist cs.length (fun j => (p j).swap) a4 a3 U S).mono a5 a6)
          (fun t => ((hrest _).2.2.2 U S).2.2.2) hd1 hd2

/-! ### Privacy -/

/-- **C86.**  A pipeline in rounds, whose steps are calls of `aggregate`, `select_partitions` and `add_dp_noise` and may use the
partitions that the rounds before released (as public partitions, or to compute the collection to which noise is added), on one
naive accountant with total budget `(e, d)`, is `(e, d)`-differentially private, if for all partitions that may have been released
the collections given to `add_dp_noise` have the sensitivities that the user states.  The random choices `ω` of contribution
bounding and of the runner have any distribution `μ`. -/
theorem C86_adaptive_noise_is_differentially_private (fmt : ℚ → String) (lib : Library) (hlib : lib.Contract) {e d : ℚ}
    {num ws s0} (h0 : Budget.init e d num ws = .ok s0) {n : ℕ} (prog : StepProgram R K n) (hs : prog.All Step.Supported)
    (hd : ¬ prog.All (fun c => ¬ c.NeedsDelta) → 0 < d) {rounds ops} (hp : prog.Planned fmt rounds ops)
    (hc : (Budget.step (Budget.run s0 ops).1 .compute).2 = .unit)
    {Ω : Type} [MeasurableSpace Ω] (μ : Measure Ω) [IsProbabilityMeasure μ]
    (env : Ω → List (Finset (ℕ × K)) → ℕ → Env K) (henv : ∀ ω h j, (env ω h j).Lawful) (pid : R → P) (data : List R) (u : P)
    (hu : prog.All fun c => c.Promised pid data u) :
    let s := specOf (Budget.step (Budget.run s0 ops).1 .compute).1
    (∀ ω, prog.Evaluates lib.sigma s (env ω) pid data [] rounds ∧
      prog.Evaluates lib.sigma s (env ω) pid (data.filter fun r => pid r ≠ u) [] rounds) ∧
    ∀ (U : Finset (ℕ × K)) (S : Finset (ℕ × ℕ)),
      (∀ ω, IsProbabilityMeasure (stepProgramLaw lib s (env ω) pid data U S prog [] rounds) ∧
        IsProbabilityMeasure (stepProgramLaw lib s (env ω) pid (data.filter fun r => pid r ≠ u) U S prog [] rounds)) ∧
      ∀ A, MeasurableSet A →
        ∫⁻ ω, stepProgramLaw lib s (env ω) pid data U S prog [] rounds A ∂μ
          ≤ ENNReal.ofReal (Real.exp e)
              * ∫⁻ ω, stepProgramLaw lib s (env ω) pid (data.filter fun r => pid r ≠ u) U S prog [] rounds A ∂μ
            + ENNReal.ofReal d ∧
        ∫⁻ ω, stepProgramLaw lib s (env ω) pid (data.filter fun r => pid r ≠ u) U S prog [] rounds A ∂μ
          ≤ ENNReal.ofReal (Real.exp e) * ∫⁻ ω, stepProgramLaw lib s (env ω) pid data U S prog [] rounds A ∂μ
            + ENNReal.ofReal d := by
  intro s
  have hsup : ∀ t, ∀ c ∈ (prog.path t).flatten, c.Supported := by
    intro t c hc
    obtain ⟨cs, h1, h2⟩ := List.mem_flatten.mp hc
    exact hs t cs h1 c h2
  obtain ⟨hplain, new, hreq, hspecs, -, hnd⟩ := planSteps_spec (hsup fun _ => ∅) (hp fun _ => ∅).1
  obtain ⟨ε, δ, hok, hε, hδ⟩ := budgets_published hplain hreq h0 (fun r hr hne => hd fun hall => by
    obtain ⟨c, hc, hcn⟩ := hnd r hr hne
    obtain ⟨cs, g1, g2⟩ := List.mem_flatten.mp hc
    exact hall _ cs g1 c g2 hcn) hc
  have hbo : ∀ t, List.Forall₂ (StepOk s ε δ) (prog.path t).flatten rounds.flatten := by
    intro t
    obtain ⟨-, new', hreq', -, hrq', -⟩ := planSteps_spec (hsup t) (hp t).1
    have hget : ∀ i m w, new'[i]? = some ⟨m, w⟩ → SpecOk s ε δ i m := by
      intro i m w hi
      have h1 : new.map (fun r => (toMechType r.mechanism, (1 : ℤ))) = new'.map fun r => (toMechType r.mechanism, (1 : ℤ)) :=
        hreq.symm.trans hreq'
      have h2 := congrArg (fun l => l[i]?) h1
      simp only [List.getElem?_map, hi, Option.map_some] at h2
      rcases hr : new[i]? with _ | r
      · rw [hr] at h2; simp at h2
      · rw [hr] at h2
        simp only [Option.map_some, Option.some.injEq, Prod.mk.injEq, and_true] at h2
        have := hok i r hr
        rwa [toMechType_injective h2] at this
    refine hrq'.imp ?_
    intro c b h
    rw [List.nil_append] at h
    cases c with
    | call c =>
      cases b with
      | noise i sens => exact h
      | call b =>
        have h : b.Requested c.kind new' := h
        refine ⟨fun part hpart i hi => ?_, fun i hi => ?_, h.nodup⟩
        · obtain ⟨w, hw⟩ := h.parts part hpart i hi
          exact hget i _ w hw
        · obtain ⟨w, hw⟩ := h.selection i hi
          exact hget i _ w hw
    | noise p f =>
      cases b with
      | call b => exact h
      | noise i sens =>
        obtain ⟨⟨w, hw⟩, h2⟩ := h
        exact ⟨hget i _ w hw, h2⟩
  have key := fun ω => stepProgram_rounds hlib (fmt := fmt) (env ω) (henv ω) pid data u prog hs hu [] rounds
    (fun t => ⟨(hp t).2, [], ops, (hp t).1⟩) hbo
  rw [List.length_nil] at hspecs
  rw [hspecs] at key
  refine ⟨fun ω => ⟨(key ω).1, (key ω).2.1⟩, fun U S => ⟨fun ω => ⟨((key ω).2.2.2 U S).1, ((key ω).2.2.2 U S).2.1⟩,
    fun A hA => ?_⟩⟩
  have fin : ∀ f g : Ω → ENNReal, (∀ ω, f ω ≤ ENNReal.ofReal (Real.exp e) * g ω + ENNReal.ofReal d) →
      ∫⁻ ω, f ω ∂μ ≤ ENNReal.ofReal (Real.exp e) * ∫⁻ ω, g ω ∂μ + ENNReal.ofReal d := by
    intro f g hfg
    refine (lintegral_mono hfg).trans ?_
    rw [lintegral_add_right _ measurable_const, lintegral_const_mul' _ _ ENNReal.ofReal_ne_top]
    simp
  exact ⟨fin _ _ fun ω => (((key ω).2.2.2 U S).2.2.1.mono hε hδ) A hA,
    fin _ _ fun ω => (((key ω).2.2.2 U S).2.2.2.mono hε hδ) A hA⟩

/-- **C86** (what the distribution is).  A round releases what its steps release (C73), and the rest of the program is the one for
exactly the partitions that were released; `T x` are the partitions released in the outcome `x`. -/
theorem C86_later_rounds_use_released_partitions (lib : Library) (s : Specs) (env : List (Finset (ℕ × K)) → ℕ → Env K)
    (pid : R → P) (data : List R) (U : Finset (ℕ × K)) (S : Finset (ℕ × ℕ)) {n : ℕ} (cs : List (Step R K))
    (next : Finset (ℕ × K) → StepProgram R K n) (before : List (Finset (ℕ × K))) (bs : List BuiltStep)
    (rest : List (List BuiltStep)) {L : List (List (Candidate K))}
    (hL : evalSteps lib.sigma s (env before) pid data 0 cs bs = .ok L)
    (hprob : ∀ t, IsProbabilityMeasure (stepProgramLaw lib s env pid data U S (next t) (t :: before) rest))
    (T : Seen U S → Finset (ℕ × K)) (hT : ∀ x k, k ∈ T x ↔ ∃ h : k ∈ U, (x.1 ⟨k, h⟩).1 = true)
    {A : Set (Seen U S × Trace U S n)} (hA : MeasurableSet A) :
    stepProgramLaw lib s env pid data U S (.round cs next) before (bs :: rest) A
      = ∫⁻ x, stepProgramLaw lib s env pid data U S (next (T x)) (T x :: before) rest {y | (x, y) ∈ A}
          ∂(observedLaw lib U S L) := by
  have e1 : stepProgramLaw lib s env pid data U S (StepProgram.round cs next) before (bs :: rest)
      = thenLaw (observedLaw lib U S L) releasedSet fun t => stepProgramLaw lib s env pid data U S
        (next (t.map (Function.Embedding.subtype _))) (t.map (Function.Embedding.subtype _) :: before) rest := by
    rw [stepProgramLaw, List.headD_cons, hL]
    rfl
  have hTx : ∀ x : Seen U S, (releasedSet x).map (Function.Embedding.subtype _) = T x := by
    intro x
    ext k
    rw [hT]
    simp [releasedSet]
  have := fun t : Finset U => hprob (t.map (Function.Embedding.subtype _))
  rw [e1]
  refine (thenLaw_apply _ measurableSet_released _ hA).trans (lintegral_congr fun x => ?_)
  simp only [hTx]
  rfl

/-- The hypothesis `hprob` holds for a program with one round (for more rounds it is part of C86). -/
example (lib : Library) (s : Specs) (env : List (Finset (ℕ × K)) → ℕ → Env K) (pid : R → P) (data : List R)
    (U : Finset (ℕ × K)) (S : Finset (ℕ × ℕ)) (before : List (Finset (ℕ × K))) (rest : List (List BuiltStep)) (t : Finset (ℕ × K)) :
    IsProbabilityMeasure (stepProgramLaw lib s env pid data U S (.done : StepProgram R K 0) (t :: before) rest) := by
  have hprob : IsProbabilityMeasure (Measure.dirac () : Measure Unit) := inferInstance
  exact hprob

/-! ### The graph does not depend on what is released -/

/-- Steps that differ at most in which partitions are public, in their extractors and in the collection to which noise is added. -/
def SameStep : Step R K → Step R K → Prop
  | .call c, .call c' => SameGraph c c'
  | .noise p _, .noise p' _ => p = p'
  | _, _ => False

theorem sameStep_plan {fmt : ℚ → String} {cs cs' : List (Step R K)} (h : List.Forall₂ SameStep cs cs') :
    ∀ rs, planSteps fmt rs cs = planSteps fmt rs cs' := by
  induction h with
  | nil => intro rs; rfl
  | @cons c c' _ _ hc _ ih =>
    intro rs
    cases c <;> cases c' <;> simp only [SameStep] at hc
    · obtain ⟨h1, h2⟩ := sameGraph_build (fmt := fmt) (rs := rs) hc
      simp only [planSteps, h1, h2, ih]
    · subst hc
      simp only [planSteps, ih]

/-- **C86** (pipelines run).  If what is released only decides which partitions are public in later calls, what their extractors
compute and which collections get noise, then the graph is the same for all outcomes, the driver raises no exception and
`compute_budgets` succeeds, whatever fitting announcements were made. -/
theorem C86_supported_program_runs (fmt : ℚ → String) {n : ℕ} (prog : StepProgram R K n) (hs : prog.All Step.Supported)
    (hg : ∀ t t', List.Forall₂ (List.Forall₂ SameStep) (prog.path t) (prog.path t')) {e d : ℚ} {num ws s0}
    (h0 : Budget.init e d num ws = .ok s0) (hd : ¬ prog.All (fun c => ¬ c.NeedsDelta) → 0 < d)
    (ha : ∀ t, AnnouncedSteps num ws (prog.path t).flatten) :
    ∃ rounds ops, prog.Planned fmt rounds ops ∧ (∀ err, Budget.Out.raised err ∉ (Budget.run s0 ops).2) ∧
      (Budget.step (Budget.run s0 ops).1 .compute).2 = .unit := by
  have hsup : ∀ c ∈ (prog.path fun _ => ∅).flatten, c.Supported := by
    intro c hc
    obtain ⟨cs, h1, h2⟩ := List.mem_flatten.mp hc
    exact hs _ cs h1 c h2
  obtain ⟨bs, ops, h1, h2, h3⟩ := C73_supported_pipeline_runs fmt _ hsup h0 (fun ⟨c, hc, hn⟩ => hd fun hall => by
    obtain ⟨cs, g1, g2⟩ := List.mem_flatten.mp hc
    exact hall _ cs g1 c g2 hn) (ha _)
  obtain ⟨rounds, rfl, hr⟩ := exists_pieces (prog.path fun _ => ∅) bs (planSteps_length h1)
  refine ⟨rounds, ops, fun t => ⟨?_, ?_⟩, h2, h3⟩
  · rw [← h1]
    exact sameStep_plan (forall₂_flatten (hg t _)) []
  · rw [← hr]
    have := hg t fun _ => ∅
    generalize prog.path t = l at this
    generalize (prog.path fun _ => ∅) = l' at this
    induction this with
    | nil => rfl
    | cons h1 _ ih => rw [List.map_cons, List.map_cons, h1.length_eq, ih]

/-! ### Nothing is left out -/

/-- `U` and `S` contain all that may be released in any round, if the rounds before released some of their candidates: every
partition that a round may release is in `U`, every number in it has its label in `S`, and `observedLaw` takes the decision
and the numbers with the distributions with which they are released. -/
def StepProgram.Covered (lib : Library) (s : Specs) (env : List (Finset (ℕ × K)) → ℕ → Env K) (pid : R → P) (data : List R)
    (U : Finset (ℕ × K)) (S : Finset (ℕ × ℕ)) : {n : ℕ} → StepProgram R K n → (before : List (Finset (ℕ × K))) →
    List (List BuiltStep) → Prop
  | _, .done, _, _ => True
  | _, .round cs next, before, rounds =>
    ∀ L, evalSteps lib.sigma s (env before) pid data 0 cs (rounds.headD []) = .ok L →
      (∀ j, ∀ c ∈ L.getD j [], (j, c.key) ∈ U ∧ decisionLaw lib (L.getD j []) c.key = c.gate.law lib ∧
        ∀ n ∈ c.numbers, (n.spec, n.comp) ∈ S ∧ numberLaw (L.getD j []) c.key (n.spec, n.comp) = n.law) ∧
      ∀ t : Finset (ℕ × K), (∀ x ∈ t, ∃ c ∈ L.getD x.1 [], c.key = x.2) →
        (next t).Covered lib s env pid data U S (t :: before) rounds.tail

theorem stepCovered_mono {lib : Library} {s : Specs} {env : List (Finset (ℕ × K)) → ℕ → Env K} {pid : R → P} {data : List R}
    {U U' : Finset (ℕ × K)} {S S' : Finset (ℕ × ℕ)} (hU : U ⊆ U') (hS : S ⊆ S') {n : ℕ} (prog : StepProgram R K n) :
    ∀ before rounds, prog.Covered lib s env pid data U S before rounds → prog.Covered lib s env pid data U' S' before rounds := by
  induction prog with
  | done => intro _ _ _; trivial
  | round cs next ih =>
    intro before rounds h L hL
    obtain ⟨h1, h2⟩ := h L hL
    refine ⟨fun j c hc => ?_, fun t ht => ih t _ _ (h2 t ht)⟩
    obtain ⟨g1, g2, g3⟩ := h1 j c hc
    exact ⟨hU g1, g2, fun n hn => ⟨hS (g3 n hn).1, (g3 n hn).2⟩⟩

/-- **C86** (nothing is left out).  For every dataset and privacy id there are finite sets `U` and `S` which contain all that the
program may release, on this dataset and on the one without the id, however the computation is executed. -/
theorem C86_everything_is_observed (fmt : ℚ → String) (lib : Library) (pid : R → P) (data : List R) (u : P) {n : ℕ}
    (prog : StepProgram R K n) (hs : prog.All Step.Supported) (hu : prog.All fun c => c.Promised pid data u) {rounds ops}
    (hp : prog.Planned fmt rounds ops) :
    ∃ (U : Finset (ℕ × K)) (S : Finset (ℕ × ℕ)), ∀ (s : Specs) (env : List (Finset (ℕ × K)) → ℕ → Env K),
      (∀ h j, (env h j).Lawful) → ∀ data' : List R, data' = data ∨ data' = (data.filter fun r => pid r ≠ u) →
        prog.Covered lib s env pid data' U S [] rounds := by
  have key : ∀ {n : ℕ} (prog : StepProgram R K n), prog.All Step.Supported → (prog.All fun c => c.Promised pid data u) → ∀ rounds,
      (∀ t, (prog.path t).map List.length = rounds.map List.length ∧
        ∃ rs ops, planSteps fmt rs (prog.path t).flatten = .ok (rounds.flatten, ops)) →
      ∃ (U : Finset (ℕ × K)) (S : Finset (ℕ × ℕ)), ∀ (s : Specs) (env : List (Finset (ℕ × K)) → ℕ → Env K),
      (∀ h j, (env h j).Lawful) → ∀ data' : List R, data' = data ∨ data' = (data.filter fun r => pid r ≠ u) → ∀ before,
        prog.Covered lib s env pid data' U S before rounds := by
    intro n prog
    induction prog with
    | done => intro _ _ rounds _; exact ⟨∅, ∅, fun _ _ _ _ _ _ => trivial⟩
    | @round n cs next ih =>
      intro hs hu rounds hp
      obtain ⟨bs, rest, rfl, hlen⟩ : ∃ bs rest, rounds = bs :: rest ∧ cs.length = bs.length := by
        have h1 := (hp fun _ => ∅).1
        rcases rounds with _ | ⟨bs, rest⟩
        · simp [StepProgram.path] at h1
        · simp only [StepProgram.path, List.map_cons, List.cons.injEq] at h1
          exact ⟨bs, rest, rfl, h1.1⟩
      have hpath : ∀ t0 t, (StepProgram.round cs next).path (fun i => Nat.casesOn i t0 t) = cs :: (next t0).path t :=
        fun _ _ => rfl
      have split : ∀ t0 t, ∃ rs ops rs' ops', planSteps fmt rs cs = .ok (bs, ops) ∧
          planSteps fmt rs' ((next t0).path t).flatten = .ok (rest.flatten, ops') := by
        intro t0 t
        obtain ⟨-, rs, ops, h⟩ := hp (fun i => Nat.casesOn i t0 t)
        rw [hpath, List.flatten_cons, List.flatten_cons] at h
        obtain ⟨bs1, bs2, ops1, ops2, rs', heq, h1, h2⟩ := planSteps_append _ h
        obtain ⟨rfl, rfl⟩ := List.append_inj heq (by rw [planSteps_length h1, hlen])
        exact ⟨rs, ops1, rs', ops2, h1, h2⟩
      obtain ⟨rs, ops, -, -, hplan, -⟩ := split ∅ fun _ => ∅
      obtain ⟨U0, S0, h0⟩ := steps_cover fmt lib pid data u cs 0 rs bs ops
        (fun c hc => (hs (fun _ => ∅) cs (by simp [StepProgram.path]) c hc).any)
        (fun c hc => hu (fun _ => ∅) cs (by simp [StepProgram.path]) c hc) hplan
      have hrest := fun t0 => ih t0
        (fun t ds hd c hc => hs (fun i => Nat.casesOn i t0 t) ds (by rw [hpath]; exact List.mem_cons_of_mem _ hd) c hc)
        (fun t ds hd c hc => hu (fun i => Nat.casesOn i t0 t) ds (by rw [hpath]; exact List.mem_cons_of_mem _ hd) c hc)
        rest (fun t => by
          have h1 := (hp (fun i => Nat.casesOn i t0 t)).1
          rw [hpath, List.map_cons, List.map_cons, List.cons.injEq] at h1
          obtain ⟨-, -, rs', ops', -, h2⟩ := split t0 t
          exact ⟨h1.2, rs', ops', h2⟩)
      choose U1 S1 h1 using hrest
      refine ⟨U0 ∪ U0.powerset.biUnion U1, S0 ∪ U0.powerset.biUnion S1, fun s env henv data' hd before L hL => ⟨?_, ?_⟩⟩
      · intro j c hc
        obtain ⟨g1, g2, g3⟩ := h0 s (env before) (henv before) data' hd L hL j c hc
        rw [Nat.zero_add] at g1
        exact ⟨Finset.mem_union_left _ g1, g2, fun n hn => ⟨Finset.mem_union_left _ (g3 n hn).1, (g3 n hn).2⟩⟩
      · intro t ht
        have hsub : t ∈ U0.powerset := by
          rw [Finset.mem_powerset]
          intro x hx
          obtain ⟨c, hc, he⟩ := ht x hx
          have := (h0 s (env before) (henv before) data' hd L hL x.1 c hc).1
          rwa [he, Nat.zero_add] at this
        refine stepCovered_mono ?_ ?_ _ _ _ (h1 t s env henv data' hd (t :: before))
        · exact (Finset.subset_biUnion_of_mem U1 hsub).trans Finset.subset_union_right
        · exact (Finset.subset_biUnion_of_mem S1 hsub).trans Finset.subset_union_right
  obtain ⟨U, S, h⟩ := key prog hs hu rounds fun t => ⟨(hp t).2, [], ops, (hp t).1⟩
  exact ⟨U, S, fun s env henv data' hd => h s env henv data' hd []⟩

/-! ### Programs without `add_dp_noise` -/

/-- A program of C68 as a program of steps. -/
def Program.toSteps {n : ℕ} : Program R K n → StepProgram R K n
  | .done => .done
  | .round cs next => .round (cs.map Step.call) fun t => (next t).toSteps

theorem path_toSteps {n : ℕ} (prog : Program R K n) : ∀ t, prog.toSteps.path t = (prog.path t).map fun cs => cs.map Step.call := by
  induction prog with
  | done => intro t; rfl
  | round cs next ih => intro t; simp only [Program.toSteps, StepProgram.path, Program.path, List.map_cons, ih]

/-- **C86** (programs without `add_dp_noise`).  They are the programs of C68: the same plans, and the same distribution of what is
released. -/
theorem C86_calls_only (fmt : ℚ → String) (lib : Library) (s : Specs) (env : List (Finset (ℕ × K)) → ℕ → Env K) (pid : R → P)
    (data : List R) {n : ℕ} (prog : Program R K n) :
    (∀ rounds ops, prog.Planned fmt rounds ops → prog.toSteps.Planned fmt (rounds.map fun bs => bs.map BuiltStep.call) ops) ∧
    ∀ U S before rounds, stepProgramLaw lib s env pid data U S prog.toSteps before (rounds.map fun bs => bs.map BuiltStep.call)
      = programLaw lib s env pid data U S prog before rounds := by
  constructor
  · intro rounds ops h t
    obtain ⟨h1, h2⟩ := h t
    rw [path_toSteps]
    refine ⟨?_, ?_⟩
    · have e1 : ((prog.path t).map fun cs => cs.map Step.call).flatten = (prog.path t).flatten.map Step.call := by
        rw [List.map_flatten]
      have e2 : (rounds.map fun bs => bs.map BuiltStep.call).flatten = rounds.flatten.map BuiltStep.call := by
        rw [List.map_flatten]
      rw [e1, e2, (C73_calls_only fmt lib.sigma s (fun j => env [] j) pid data _).1, h1]
    · rw [List.map_map, List.map_map]
      have c1 : List.length ∘ (fun cs : List (Call R K) => cs.map Step.call) = List.length := by
        funext x; simp
      have c2 : List.length ∘ (fun cs : List Built => cs.map BuiltStep.call) = List.length := by
        funext x; simp
      rw [c1, c2, h2]
  · intro U S
    induction prog with
    | done => intro before rounds; rfl
    | round cs next ih =>
      intro before rounds
      have e : (rounds.map fun bs => bs.map BuiltStep.call).headD [] = (rounds.headD []).map BuiltStep.call := by
        cases rounds <;> rfl
      simp only [Program.toSteps, stepProgramLaw, programLaw, e, (C73_calls_only fmt lib.sigma s (env before) pid data cs).2,
        ← List.map_tail, ih]
      rfl

/-! ### Partitions that were not selected -/

theorem noiseColumn_candidates {sigma : ℝ → ℝ → ℝ → ℝ} {s : Specs} {i : ℕ} {sens : Sens} :
    ∀ {col : List (K × ℚ)} {L : List (Candidate K)}, noiseColumn sigma s i sens col = .ok L →
      L.map Candidate.key = col.map Prod.fst ∧ ∀ c ∈ L, c.gate = .always := by
  intro col
  induction col with
  | nil =>
    intro L h
    have : L = [] := by
      simp only [noiseColumn, List.mapM_nil] at h
      exact (Except.ok.inj h).symm
    subst this
    exact ⟨rfl, by simp⟩
  | cons x col ih =>
    intro L h
    simp only [noiseColumn, List.mapM_cons] at h
    rcases hm : PDP.Engine.Mechanism.createAdditive sigma (s i) sens with e | m
    · rw [hm] at h; cases h
    · rw [hm] at h
      rcases hr : noiseColumn sigma s i sens col with e | L'
      · rw [noiseColumn, hm] at hr
        dsimp only at h hr
        rw [hr] at h
        cases h
      · have hr' := hr
        rw [noiseColumn, hm] at hr
        dsimp only at h hr
        rw [hr] at h
        cases h
        obtain ⟨h1, h2⟩ := ih hr'
        refine ⟨by simp [h1], fun c hc => ?_⟩
        rcases List.mem_cons.mp hc with rfl | hc
        · rfl
        · exact h2 c hc

/-- What a step with `add_dp_noise` releases in a pipeline. -/
theorem evalSteps_noise {fmt : ℚ → String} {sigma : ℝ → ℝ → ℝ → ℝ} {s : Specs} {env : ℕ → Env K} {pid : R → P} {data : List R}
    {p : AddNoise.Params} {column : List R → List (K × ℚ)} :
    ∀ {cs : List (Step R K)} {rs : List Request} {bs ops}, planSteps fmt rs cs = .ok (bs, ops) → ∀ {j0 : ℕ} {L},
      evalSteps sigma s env pid data j0 cs bs = .ok L → ∀ {j : ℕ}, cs[j]? = some (.noise p column) →
      (L.getD j []).map Candidate.key = (column data).map Prod.fst ∧ ∀ c ∈ L.getD j [], c.gate = .always := by
  intro cs
  induction cs with
  | nil => intro rs bs ops _ j0 L _ j hj; simp at hj
  | cons c cs ih =>
    intro rs bs ops h j0 L hL j hj
    cases c with
    | call c =>
      rw [planSteps] at h
      rcases hx : build fmt rs c with ⟨r, rs'⟩
      rw [hx] at h
      rcases r with e | b
      · simp at h
      · dsimp only at h
        rcases hp : planSteps fmt rs' cs with e | ⟨bs', ops'⟩
        · rw [hp] at h; simp at h
        · rw [hp] at h
          simp only [Except.ok.injEq, Prod.mk.injEq] at h
          obtain ⟨rfl, rfl⟩ := h
          rw [evalSteps] at hL
          rcases hy : evalCall sigma s (env j0) pid b data c with e | x
          · rw [hy] at hL; cases hL
          · rw [hy] at hL
            dsimp only at hL
            rcases hz : evalSteps sigma s env pid data (j0 + 1) cs bs' with e | y
            · rw [hz] at hL; cases hL
            · rw [hz] at hL
              cases hL
              cases j with
              | zero => simp at hj
              | succ j => exact ih hp hz (by simpa using hj)
    | noise p' f =>
      rw [planSteps] at h
      rcases hm : mkSens (p'.l0.map fun x : ℚ => (x : ℝ)) (p'.linf.map fun x : ℚ => (x : ℝ)) none none with e | sens
      · rw [hm] at h; cases h
      · rw [hm] at h
        dsimp only at h
        rcases hp : planSteps fmt (requestBudget rs p'.kind.mechanism 1).2 cs with e | ⟨bs', ops'⟩
        · rw [hp] at h; simp at h
        · rw [hp] at h
          simp only [Except.ok.injEq, Prod.mk.injEq] at h
          obtain ⟨rfl, rfl⟩ := h
          rw [evalSteps] at hL
          rcases hy : noiseColumn sigma s (requestBudget rs p'.kind.mechanism 1).1 sens (f data) with e | x
          · rw [hy] at hL; cases hL
          · rw [hy] at hL
            dsimp only at hL
            rcases hz : evalSteps sigma s env pid data (j0 + 1) cs bs' with e | y
            · rw [hz] at hL; cases hL
            · rw [hz] at hL
              cases hL
              cases j with
              | zero =>
                simp only [List.getElem?_cons_zero, Option.some.injEq, Step.noise.injEq] at hj
                obtain ⟨rfl, rfl⟩ := hj
                exact noiseColumn_candidates hy
              | succ j => exact ih hp hz (by simpa using hj)

theorem observed_one_decision (lib : Library) (L : List (List (Candidate K))) (j : ℕ) (k : K)
    (h : ∀ c ∈ L.getD j [], c.gate = .always) :
    observedLaw lib {(j, k)} ∅ L {x | (x.1 ⟨(j, k), Finset.mem_singleton_self _⟩).1 = true}
      = if k ∈ (L.getD j []).map Candidate.key then 1 else 0 := by
  have hlaw : decisionLaw lib (L.getD j []) k
      = Measure.dirac (decide (k ∈ (L.getD j []).map Candidate.key), 0) := by
    unfold decisionLaw
    cases hf : (L.getD j []).find? fun c => c.key = k with
    | none =>
      have : k ∉ (L.getD j []).map Candidate.key := by
        intro hk
        obtain ⟨c, hc, hck⟩ := List.mem_map.mp hk
        have := List.find?_eq_none.mp hf c hc
        simp [hck] at this
      rw [decide_eq_false this]
    | some c =>
      have h1 := List.mem_of_find?_eq_some hf
      have h2 := List.find?_some hf
      have : k ∈ (L.getD j []).map Candidate.key := List.mem_map.mpr ⟨c, h1, by simpa using h2⟩
      simp only [h c h1, Gate.law, this, decide_true]
  let u : ({(j, k)} : Finset (ℕ × K)) := ⟨(j, k), Finset.mem_singleton_self _⟩
  have hu : ∀ v : ({(j, k)} : Finset (ℕ × K)), v = u := fun v => Subtype.ext (Finset.mem_singleton.mp v.2)
  have hdec : ∀ v : ({(j, k)} : Finset (ℕ × K)), decisionLaw lib (L.getD v.1.1 []) v.1.2
      = Measure.dirac (decide (k ∈ (L.getD j []).map Candidate.key), 0) := by
    intro v
    rw [hu v]
    exact hlaw
  have hm : Measurable fun x : (({(j, k)} : Finset (ℕ × K)) → Bool × ℝ) × ((({(j, k)} : Finset (ℕ × K)) × (∅ : Finset (ℕ × ℕ))) → ℝ) =>
      (x.1 u).1 := ((measurable_pi_apply u).comp measurable_fst).fst
  have hA := hm (measurableSet_singleton true)
  unfold observedLaw
  refine (Measure.map_apply measurable_hide hA).trans ?_
  have hpre : hide ⁻¹' {x : (({(j, k)} : Finset (ℕ × K)) → Bool × ℝ) × ((({(j, k)} : Finset (ℕ × K)) × (∅ : Finset (ℕ × ℕ))) → ℝ) |
      (x.1 u).1 = true} = {y : ({(j, k)} : Finset (ℕ × K)) → Bool × ℝ | (y u).1 = true} ×ˢ Set.univ := by
    ext x
    simp [hide]
  have : ∀ i : ({(j, k)} : Finset (ℕ × K)) × (∅ : Finset (ℕ × ℕ)), IsProbabilityMeasure (numberLaw (L.getD i.1.1.1 []) i.1.1.2 i.2.1) :=
    fun i => absurd i.2.2 (Finset.notMem_empty _)
  simp only [hdec]
  refine (congrArg _ hpre).trans ?_
  rw [Measure.prod_prod, measure_univ, mul_one]
  have hev := (measurePreserving_eval (fun _ : ({(j, k)} : Finset (ℕ × K)) =>
    Measure.dirac (decide (k ∈ (L.getD j []).map Candidate.key), (0 : ℝ))) u).map_eq
  have hB : MeasurableSet {y : Bool × ℝ | y.1 = true} := measurable_fst (measurableSet_singleton true)
  have h3 : (Measure.pi fun _ : ({(j, k)} : Finset (ℕ × K)) =>
      Measure.dirac (decide (k ∈ (L.getD j []).map Candidate.key), (0 : ℝ))) (Function.eval u ⁻¹' {y : Bool × ℝ | y.1 = true})
      = Measure.dirac (decide (k ∈ (L.getD j []).map Candidate.key), (0 : ℝ)) {y : Bool × ℝ | y.1 = true} := by
    rw [← Measure.map_apply (measurable_pi_apply u) hB, hev]
  refine h3.trans ?_
  rw [Measure.dirac_apply' _ hB]
  by_cases hk : k ∈ (L.getD j []).map Candidate.key
  · rw [if_pos hk, decide_eq_true hk]; simp
  · rw [if_neg hk, decide_eq_false hk]; simp

/-- **C86** (the partitions have to be public or selected).  If the collection given to `add_dp_noise` has a partition `k` for one
dataset and not for another, then `k` is released with probability 1 for the first and with probability 0 for the second: whatever
the noise and the budget, the pipeline is not `(ε, δ)`-differentially private for these datasets, for any `δ < 1`. -/
theorem C86_unselected_partitions_are_revealed (fmt : ℚ → String) (lib : Library) (s : Specs) (env : ℕ → Env K) (pid : R → P)
    (data data' : List R) (cs : List (Step R K)) {bs ops} (hp : planSteps fmt [] cs = .ok (bs, ops)) {j : ℕ} {p : AddNoise.Params}
    {column : List R → List (K × ℚ)} (hj : cs[j]? = some (.noise p column)) {k : K} (hk : k ∈ (column data).map Prod.fst)
    (hk' : k ∉ (column data').map Prod.fst) {L L' : List (List (Candidate K))}
    (hL : evalSteps lib.sigma s env pid data 0 cs bs = .ok L) (hL' : evalSteps lib.sigma s env pid data' 0 cs bs = .ok L') :
    let seen : Set ((({(j, k)} : Finset (ℕ × K)) → Bool × ℝ) × (({(j, k)} : Finset (ℕ × K)) × (∅ : Finset (ℕ × ℕ)) → ℝ)) :=
      {x | (x.1 ⟨(j, k), Finset.mem_singleton_self _⟩).1 = true}
    observedLaw lib {(j, k)} ∅ L seen = 1 ∧ observedLaw lib {(j, k)} ∅ L' seen = 0 ∧
      ∀ ε δ : ℝ, δ < 1 → ¬ Indist ε δ (observedLaw lib {(j, k)} ∅ L) (observedLaw lib {(j, k)} ∅ L') := by
  intro seen
  obtain ⟨h1, h2⟩ := evalSteps_noise hp hL hj
  obtain ⟨h1', h2'⟩ := evalSteps_noise hp hL' hj
  have e1 : observedLaw lib {(j, k)} ∅ L seen = 1 := by
    rw [observed_one_decision lib L j k h2, h1, if_pos hk]
  have e2 : observedLaw lib {(j, k)} ∅ L' seen = 0 := by
    rw [observed_one_decision lib L' j k h2', h1', if_neg hk']
  refine ⟨e1, e2, fun ε δ hδ h => ?_⟩
  have hm : MeasurableSet seen := by
    have hm : Measurable fun x : (({(j, k)} : Finset (ℕ × K)) → Bool × ℝ) × ((({(j, k)} : Finset (ℕ × K)) × (∅ : Finset (ℕ × ℕ))) → ℝ) =>
      (x.1 ⟨(j, k), Finset.mem_singleton_self _⟩).1 := ((measurable_pi_apply _).comp measurable_fst).fst
    exact hm (measurableSet_singleton true)
  have := h seen hm
  rw [e1, e2, mul_zero, zero_add, ENNReal.one_le_ofReal] at this
  linarith

/-! ### Examples -/

/-- The numbers of users of the days `days`. -/
def usersOn (days : List ℕ) (data : List (ℕ × ℕ × ℚ)) : List (ℕ × ℚ) :=
  days.map fun day => (day, ((((data.filter fun r => r.2.1 = day).map Prod.fst).toFinset.card : ℕ) : ℚ))

/-- One user changes at most the numbers of all days, each by at most 1. -/
theorem usersOn_sensitive (kind : NoiseKind) (w : ℚ) {days : List ℕ} (hn : days.Nodup) (hd : days.length ≤ 2)
    (data : List (ℕ × ℕ × ℚ)) (u : ℕ) :
    Sensitive ⟨kind, some 2, some 1, w⟩ (usersOn days data) (usersOn days (data.filter fun r => r.1 ≠ u)) := by
  have keys : ∀ d, (usersOn days d).map Prod.fst = days := fun d => by simp [usersOn, Function.comp_def]
  refine ⟨by rw [keys]; exact hn, by rw [keys]; exact hn, fun k => by rw [keys, keys], fun a ha => ?_, fun b hb k v v' hv hv' => ?_⟩
  · cases ha
    have h := List.length_filter_le (fun x => decide (x ∉ usersOn days (data.filter fun r => r.1 ≠ u))) (usersOn days data)
    have h2 : (usersOn days data).length = days.length := by simp [usersOn]
    rw [h2] at h
    exact_mod_cast h.trans hd
  · cases hb
    unfold usersOn at hv hv'
    obtain ⟨day, -, h1⟩ := List.mem_map.mp hv
    obtain ⟨day', -, h2⟩ := List.mem_map.mp hv'
    obtain ⟨rfl, rfl⟩ := Prod.mk.inj h1
    obtain ⟨rfl, rfl⟩ := Prod.mk.inj h2
    rw [users_without]
    have c1 := Finset.card_erase_le (a := u) (s := ((data.filter fun r => r.2.1 = day').map Prod.fst).toFinset)
    have c2 := Finset.pred_card_le_card_erase (a := u) (s := ((data.filter fun r => r.2.1 = day').map Prod.fst).toFinset)
    generalize ((data.filter fun r => r.2.1 = day').map Prod.fst).toFinset.card = A at c1 c2 ⊢
    generalize (((data.filter fun r => r.2.1 = day').map Prod.fst).toFinset.erase u).card = B at c1 c2 ⊢
    have e1 : (B : ℚ) ≤ A := by exact_mod_cast c1
    have e2 : (A : ℚ) ≤ B + 1 := by
      have : A ≤ B + 1 := by omega
      exact_mod_cast this
    rw [abs_le]
    constructor <;> linarith

/-- Rows (user, day, amount).  First days are selected privately; then Gaussian noise is added to the numbers of users of two of
the selected days. -/
noncomputable def exampleStepProgram : StepProgram (ℕ × ℕ × ℚ) ℕ 2 :=
  .round [.call (.select { maxPartitions := 3 } (fun r => r.2.1))] fun t =>
    .round [.noise ⟨.gaussian, some 2, some 1, 1⟩ (usersOn ((t.image Prod.snd).toList.take 2))] fun _ => .done

theorem exampleStepProgram_all (q : Step (ℕ × ℕ × ℚ) ℕ → Prop) (h1 : q (.call (.select { maxPartitions := 3 } (fun r => r.2.1))))
    (h2 : ∀ days : List ℕ, days.Nodup → days.length ≤ 2 → q (.noise ⟨.gaussian, some 2, some 1, 1⟩ (usersOn days))) :
    exampleStepProgram.All q := by
  intro t cs hcs c hc
  simp only [exampleStepProgram, StepProgram.path, List.mem_cons, List.not_mem_nil, or_false] at hcs
  rcases hcs with rfl | rfl
  · rw [List.mem_singleton] at hc; subst hc; exact h1
  · rw [List.mem_singleton] at hc
    subst hc
    refine h2 _ ((Finset.nodup_toList _).sublist (List.take_sublist _ _)) ?_
    rw [List.length_take]
    exact min_le_left _ _

/-- The hypotheses of C86 hold for this program with total budget (1, 1/1000), on every dataset and for every user. -/
example (fmt : ℚ → String) (data : List (ℕ × ℕ × ℚ)) (u : ℕ) :
    ∃ s0 rounds ops, Budget.init 1 (1 / 1000) none none = .ok s0 ∧ exampleStepProgram.Planned fmt rounds ops ∧
      let s := specOf (Budget.step (Budget.run s0 ops).1 .compute).1
      let env : List (Finset (ℕ × ℕ)) → ℕ → Env ℕ := fun _ _ => exampleEnv firstRng
      ∀ (U : Finset (ℕ × ℕ)) (S : Finset (ℕ × ℕ)), ∀ A, MeasurableSet A →
        stepProgramLaw exampleLibrary s env Prod.fst data U S exampleStepProgram [] rounds A
          ≤ ENNReal.ofReal (Real.exp 1) * stepProgramLaw exampleLibrary s env Prod.fst (data.filter fun r => r.1 ≠ u) U S
            exampleStepProgram [] rounds A + ENNReal.ofReal (1 / 1000) := by
  have hs : exampleStepProgram.All Step.Supported := exampleStepProgram_all _ ⟨by norm_num, by norm_num⟩ fun days _ _ =>
    ⟨⟨2, rfl, by norm_num⟩, ⟨1, rfl, by norm_num⟩, by norm_num⟩
  obtain ⟨s0, h0⟩ : ∃ s0, Budget.init 1 (1 / 1000) none none = .ok s0 := by
    norm_num [Budget.init]
  obtain ⟨rounds, ops, hp, -, hc⟩ := C86_supported_program_runs fmt exampleStepProgram hs (fun t t' => by
    simp only [exampleStepProgram, StepProgram.path]
    exact .cons (.cons rfl .nil) (.cons (.cons rfl .nil) .nil)) h0 (fun _ => by norm_num)
    (fun t => ⟨by simp, by simp⟩)
  refine ⟨s0, rounds, ops, h0, hp, ?_⟩
  have h := C86_adaptive_noise_is_differentially_private fmt exampleLibrary exampleLibrary_contract h0 exampleStepProgram hs
    (fun _ => by norm_num) hp hc (Measure.dirac ()) (fun _ _ _ => exampleEnv firstRng) (fun _ _ _ => exampleEnv_lawful _)
    Prod.fst data u (exampleStepProgram_all _ trivial fun days hn hd => usersOn_sensitive _ _ hn hd data u)
  intro s env U S A hA
  have := ((h.2 U S).2 A hA).1
  simpa using this

/-- The numbers of users of all days of the data. -/
def usersOfAllDays (data : List (ℕ × ℕ × ℚ)) : List (ℕ × ℚ) :=
  usersOn (data.map fun r => r.2.1).dedup data

/-- Noise added to the numbers of users of all days of the data: the day 5, on which only the user 7 was there, is seen with
probability 1, and without this user with probability 0. -/
example (fmt : ℚ → String) :
    let cs : List (Step (ℕ × ℕ × ℚ) ℕ) := [.noise ⟨.laplace, some 2, some 1, 1⟩ usersOfAllDays]
    ∃ bs ops, planSteps fmt [] cs = .ok (bs, ops) ∧
      ∃ (s : Specs) (L L' : List (List (Candidate ℕ))),
        evalSteps exampleLibrary.sigma s (fun _ => exampleEnv firstRng) Prod.fst [(7, 5, 2)] 0 cs bs = .ok L ∧
        evalSteps exampleLibrary.sigma s (fun _ => exampleEnv firstRng) Prod.fst [] 0 cs bs = .ok L' ∧
        ∀ ε δ : ℝ, δ < 1 →
          ¬ Indist ε δ (observedLaw exampleLibrary {(0, 5)} ∅ L) (observedLaw exampleLibrary {(0, 5)} ∅ L') := by
  intro cs
  have hm := AddNoise.mkSens_ok (a := (2 : ℚ)) (b := (1 : ℚ)) (by norm_num) (by norm_num)
  have hp : planSteps fmt [] cs = .ok ([.noise 0 ⟨some ((2 : ℚ) : ℝ), some ((1 : ℚ) : ℝ), some (((2 : ℚ) : ℝ) * ((1 : ℚ) : ℝ)),
      some (Real.sqrt ((2 : ℚ) : ℝ) * ((1 : ℚ) : ℝ))⟩], noiseOps ⟨.laplace, some 2, some 1, 1⟩ ++ []) := by
    simp only [cs, planSteps, Option.map_some, hm]
    rfl
  let s : Specs := fun _ => ⟨.laplace, none, some 1, some 0⟩
  have hcr : PDP.Engine.Mechanism.createAdditive exampleLibrary.sigma (s 0) ⟨some ((2 : ℚ) : ℝ), some ((1 : ℚ) : ℝ),
      some (((2 : ℚ) : ℝ) * ((1 : ℚ) : ℝ)), some (Real.sqrt ((2 : ℚ) : ℝ) * ((1 : ℚ) : ℝ))⟩
      = .ok (PDP.Engine.Mechanism.laplaceFromEpsilon 1 (((2 : ℚ) : ℝ) * ((1 : ℚ) : ℝ))) := rfl
  have hev : ∀ data : List (ℕ × ℕ × ℚ), ∃ L, evalSteps exampleLibrary.sigma s (fun _ => exampleEnv firstRng) Prod.fst data 0 cs
      [.noise 0 ⟨some ((2 : ℚ) : ℝ), some ((1 : ℚ) : ℝ), some (((2 : ℚ) : ℝ) * ((1 : ℚ) : ℝ)),
        some (Real.sqrt ((2 : ℚ) : ℝ) * ((1 : ℚ) : ℝ))⟩] = .ok L := by
    intro data
    refine ⟨[(usersOfAllDays data).map fun x => ⟨x.1, .always, [⟨x.1, 0, 0, x.2,
      PDP.Engine.Mechanism.laplaceFromEpsilon 1 (((2 : ℚ) : ℝ) * ((1 : ℚ) : ℝ))⟩]⟩], ?_⟩
    simp only [cs, evalSteps, noiseColumn_ok hcr]
  obtain ⟨L, hL⟩ := hev [(7, 5, 2)]
  obtain ⟨L', hL'⟩ := hev []
  refine ⟨_, _, hp, s, L, L', hL, hL', ?_⟩
  exact (C86_unselected_partitions_are_revealed fmt exampleLibrary s _ Prod.fst [(7, 5, 2)] [] cs hp (j := 0)
    (column := usersOfAllDays) rfl (k := 5) (by decide +kernel) (by decide +kernel) hL hL').2.2

end PDP.EndToEnd
