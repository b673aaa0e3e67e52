import Verif.EndToEnd.Accuracy
import Verif.EndToEnd.AdaptiveMixed

/-!
# How far the results of `add_dp_noise` are from the given values (C93)
-/

set_option linter.unusedSectionVars false

namespace PDP.EndToEnd

open PDP PDP.Engine MeasureTheory
open PDP.Engine.Mechanism (Additive createAdditive)
open PDP.Engine.AddNoise (specOf)
open PDP.Budget (State Op MechType Mech)

variable {R P K : Type} [DecidableEq P] [DecidableEq K]

/-! ### Specification -/

/-- A call of `add_dp_noise`: its parameters and the collection that it is called with, computed from the data. -/
abbrev NoiseCall (R K : Type) : Type := AddNoise.Params × (List R → List (K × ℚ))

/-- The step of a pipeline that makes the call. -/
def NoiseCall.step (x : NoiseCall R K) : Step R K := .noise x.1 x.2

/-- The value `v` is released with a number of distribution `law`: Laplace noise of scale `l0 · linf / eps`, or the Gaussian noise
for (`eps`, `delta`) and the L2 sensitivity `√l0 · linf`. -/
def AddNoise.Params.Accurate (sigma : ℝ → ℝ → ℝ → ℝ) (p : AddNoise.Params) (l0 linf : ℚ) (eps delta v : ℝ)
    (law : Measure ℝ) : Prop :=
  match p.kind with
  | .laplace => LaplaceAround law v ((l0 : ℝ) * linf / eps)
  | .gaussian => GaussianAround law v (sigma eps delta (Real.sqrt l0 * linf))

/-- The candidate `c` is the key of `y` without any selection, with one number around the value of `y`. -/
def NoiseCall.Releases (sigma : ℝ → ℝ → ℝ → ℝ) (x : NoiseCall R K) (eps delta : ℝ) (y : K × ℚ) (c : Candidate K) : Prop :=
  c.key = y.1 ∧ c.gate = .always ∧ ∃ n a b, c.numbers = [n] ∧ x.1.l0 = some a ∧ x.1.linf = some b ∧
    AddNoise.Params.Accurate sigma x.1 a b eps delta y.2 n.law

/-- Number of calls with Gaussian noise. -/
def gaussianCalls (ps : List (NoiseCall R K)) : ℕ := (ps.filter fun x => x.1.kind = .gaussian).length

/-! ### Lemmas -/

/-- The mechanism registered by a call. -/
def noiseMech (p : AddNoise.Params) : Mech := ⟨AddNoise.mechType p.kind, 1, 1, 1, none, none⟩

theorem noise_registers {p : AddNoise.Params} (s : State) (hs : s.finalized = false) (hst : s.stack = [])
    (hg : p.kind = .gaussian → s.totalDelta ≠ 0) :
    let s' := (Budget.run s (noiseOps p)).1
    s'.finalized = false ∧ s'.stack = [] ∧ s'.mechs = s.mechs ++ [noiseMech p] ∧ s'.totalEps = s.totalEps ∧
      s'.totalDelta = s.totalDelta := by
  have hstep := step_request hs (AddNoise.mechType p.kind) 1 1 (fun h => hg (by
    cases hk : p.kind with
    | laplace => rw [hk] at h; cases h
    | gaussian => rfl))
  have hreg : Budget.register s ⟨AddNoise.mechType p.kind, 1, 1, 1, none, none⟩
      = { s with mechs := s.mechs ++ [noiseMech p] } := by
    simp [Budget.register, hst, noiseMech]
  simp only [noiseOps, Budget.run, hstep]
  rw [hreg]
  simp only [Budget.step, Budget.computeBudgetForAggregation]
  cases hn : Budget.truthyNum s.expectedNum with
  | some n => exact ⟨hs, hst, rfl, rfl, rfl⟩
  | none =>
    cases hws : Budget.truthyList s.expectedWeights with
    | none => exact ⟨hs, hst, rfl, rfl, rfl⟩
    | some ws =>
      by_cases h : ws.sum = 0
      · simp [h, hs, hst]
      · simp [h, hs, hst]

/-- The sensitivities of a call. -/
noncomputable def noiseSens (p : AddNoise.Params) : Sens :=
  let a : ℝ := (p.l0.getD 0 : ℚ)
  let b : ℝ := (p.linf.getD 0 : ℚ)
  ⟨some a, some b, some (a * b), some (Real.sqrt a * b)⟩

theorem noise_plan (fmt : ℚ → String) : ∀ (ps : List (NoiseCall R K)) (rs : List Request),
    (∀ x ∈ ps, x.step.Supported) →
    planSteps fmt rs (ps.map NoiseCall.step)
      = .ok (ps.mapIdx fun i x => .noise (rs.length + i) (noiseSens x.1), ps.flatMap fun x => noiseOps x.1) := by
  intro ps
  induction ps with
  | nil => intro rs _; rfl
  | cons x ps ih =>
    intro rs h
    obtain ⟨⟨a, ha, ha0⟩, ⟨b, hb, hb0⟩, -⟩ := h x (by simp)
    have hm := AddNoise.mkSens_ok ha0 hb0
    have hs : noiseSens x.1 = ⟨some (a : ℝ), some (b : ℝ), some ((a : ℝ) * b), some (Real.sqrt a * b)⟩ := by
      simp [noiseSens, ha, hb]
    have ih' := ih (requestBudget rs x.1.kind.mechanism 1).2 (fun y hy => h y (by simp [hy]))
    simp only [List.map_cons, NoiseCall.step] at ih' ⊢
    simp only [planSteps, ha, hb, Option.map_some, hm]
    rw [show (ps.map NoiseCall.step) = ps.map fun x : NoiseCall R K => Step.noise x.1 x.2 from rfl] at *
    rw [ih']
    simp only [requestBudget, List.mapIdx_cons, List.flatMap_cons, hs, List.length_append, List.length_singleton, Nat.add_zero]
    congr 4
    funext i y
    rw [Nat.add_assoc, Nat.add_comm 1 i]

theorem noise_mechs : ∀ (ps : List (NoiseCall R K)) (s : State), s.finalized = false → s.stack = [] →
    (∀ x ∈ ps, x.1.kind = .gaussian → s.totalDelta ≠ 0) →
    let s' := (Budget.run s (ps.flatMap fun x => noiseOps x.1)).1
    s'.finalized = false ∧ s'.stack = [] ∧ s'.mechs = s.mechs ++ ps.map (fun x => noiseMech x.1) ∧ s'.totalEps = s.totalEps ∧
      s'.totalDelta = s.totalDelta := by
  intro ps
  induction ps with
  | nil => intro s hs hst _; simp [Budget.run, hs, hst]
  | cons x ps ih =>
    intro s hs hst hg
    obtain ⟨a1, a2, a3, a4, a5⟩ := noise_registers (p := x.1) s hs hst (hg x (by simp))
    obtain ⟨b1, b2, b3, b4, b5⟩ := ih _ a1 a2 (fun y hy hk => by rw [a5]; exact hg y (by simp [hy]) hk)
    rw [List.flatMap_cons, Budget.run_append]
    refine ⟨b1, b2, ?_, by rw [b4, a4], by rw [b5, a5]⟩
    rw [b3, a3]; simp

theorem noise_weights (ps : List (NoiseCall R K)) :
    Budget.totalWeightEps (ps.map fun x => noiseMech x.1) = ps.length ∧
      Budget.totalWeightDelta (ps.map fun x => noiseMech x.1) = gaussianCalls ps := by
  rw [Budget.totalWeightEps_eq, Budget.totalWeightDelta_eq]
  unfold gaussianCalls
  induction ps with
  | nil => simp
  | cons x ps ih =>
    simp only [List.map_cons, List.sum_cons, ih.1, ih.2, List.filter_cons, List.length_cons]
    cases hk : x.1.kind <;>
      simp [noiseMech, hk, AddNoise.mechType, Budget.Mech.useDelta, add_comm]

theorem noise_eval {sigma : ℝ → ℝ → ℝ → ℝ} (hσ : ∀ e d x, 0 < e → 0 < d → 0 < x → 0 < sigma e d x) {s : Specs} {eps delta : ℝ}
    (he : 0 < eps) (env : ℕ → Env K) (pid : R → P) (data : List R) :
    ∀ (ps : List (NoiseCall R K)) (i j : ℕ), (∀ x ∈ ps, x.step.Supported) → (∀ x ∈ ps, x.1.kind = .gaussian → 0 < delta) →
      (∀ k x, ps[k]? = some x → ∃ δ : ℝ, s (i + k) = ⟨AddNoise.mechType x.1.kind, none, some eps, some δ⟩ ∧
        (x.1.kind = .gaussian → δ = delta)) →
      ∃ L, evalSteps sigma s env pid data j (ps.map NoiseCall.step)
          (ps.mapIdx fun k x => .noise (i + k) (noiseSens x.1)) = .ok L ∧
        List.Forall₂ (fun x l => List.Forall₂ (NoiseCall.Releases sigma x eps delta) (x.2 data) l) ps L := by
  intro ps
  induction ps with
  | nil => intro i j _ _ _; exact ⟨[], rfl, .nil⟩
  | cons x ps ih =>
    intro i j h hd hs
    obtain ⟨⟨a, ha, ha0⟩, ⟨b, hb, hb0⟩, -⟩ := h x (by simp)
    have ha' : (0 : ℝ) < a := by exact_mod_cast ha0
    have hb' : (0 : ℝ) < b := by exact_mod_cast hb0
    obtain ⟨L, hL, hF⟩ := ih (i + 1) (j + 1) (fun y hy => h y (by simp [hy])) (fun y hy => hd y (by simp [hy]))
      (fun k y hk => by
        have := hs (k + 1) y (by simpa using hk)
        rwa [show i + 1 + k = i + (k + 1) by omega])
    have hsens : noiseSens x.1 = ⟨some (a : ℝ), some (b : ℝ), some ((a : ℝ) * b), some (Real.sqrt a * b)⟩ := by
      simp [noiseSens, ha, hb]
    obtain ⟨δ, hsp, hδ⟩ := hs 0 x (by simp)
    rw [Nat.add_zero] at hsp
    obtain ⟨m, hm, hacc⟩ : ∃ m, createAdditive sigma (s i) (noiseSens x.1) = .ok m ∧
        ∀ v : ℝ, AddNoise.Params.Accurate sigma x.1 a b eps delta v (noisy m v) := by
      rw [hsp, hsens]
      unfold AddNoise.Params.Accurate
      cases hk : x.1.kind with
      | laplace => exact ⟨.laplace ((a : ℝ) * b / eps) ((a : ℝ) * b), rfl, fun v => laplace_around (by positivity) _ _⟩
      | gaussian =>
        have hd0 := hd x (by simp) hk
        rw [hδ hk]
        exact ⟨.gaussian (sigma eps delta (Real.sqrt a * b)) (Real.sqrt a * b), rfl,
          fun v => gaussian_around (hσ _ _ _ he hd0 (by positivity)) _ _⟩
    refine ⟨((x.2 data).map fun y => ⟨y.1, .always, [⟨y.1, i, 0, y.2, m⟩]⟩) :: L, ?_, .cons ?_ hF⟩
    · simp only [List.map_cons, List.mapIdx_cons, NoiseCall.step, evalSteps, Nat.add_zero, noiseColumn_ok hm]
      have : (fun k (y : NoiseCall R K) => BuiltStep.noise (i + (k + 1)) (noiseSens y.1))
          = fun k y => BuiltStep.noise (i + 1 + k) (noiseSens y.1) := by
        funext k y; congr 1; omega
      rw [this, show (ps.map NoiseCall.step) = ps.map fun x : NoiseCall R K => Step.noise x.1 x.2 from rfl] at *
      rw [hL]
    · rw [List.forall₂_map_right_iff, List.forall₂_same]
      intro y _
      exact ⟨rfl, rfl, _, a, b, rfl, ha, hb, hacc _⟩

/-! ### Main theorem -/

/-- **C93.** In a pipeline of `n` calls of `add_dp_noise` on a naive accountant with the total budget (`e`, `d`), nothing fails,
every key of every collection is released once and in order, with one number around its value: every call is made with epsilon
`e / n`, and every call with Gaussian noise with the delta `d` divided by the number of these calls, whatever `budget_weight`
the calls have. -/
theorem C93_add_dp_noise_is_accurate (fmt : ℚ → String) (lib : Library) (hlib : lib.Contract) (ps : List (NoiseCall R K))
    (hne : ps ≠ []) (hs : ∀ x ∈ ps, x.step.Supported) {e d : ℚ} {num ws s0} (h0 : Budget.init e d num ws = .ok s0)
    (hd : (∃ x ∈ ps, x.1.kind = .gaussian) → 0 < d) (ha : AnnouncedSteps num ws (ps.map NoiseCall.step)) :
    ∃ bs ops, planSteps fmt [] (ps.map NoiseCall.step) = .ok (bs, ops) ∧
      (∀ err, Budget.Out.raised err ∉ (Budget.run s0 ops).2) ∧
      (Budget.step (Budget.run s0 ops).1 .compute).2 = .unit ∧
      ∀ (env : ℕ → Env K) (pid : R → P) (data : List R),
        ∃ L, evalSteps lib.sigma (specOf (Budget.step (Budget.run s0 ops).1 .compute).1) env pid data 0 (ps.map NoiseCall.step) bs
            = .ok L ∧
          List.Forall₂ (fun x l => List.Forall₂
            (NoiseCall.Releases lib.sigma x ((e : ℝ) / ps.length) ((d : ℝ) / gaussianCalls ps)) (x.2 data) l) ps L := by
  have hs' : ∀ c ∈ ps.map NoiseCall.step, c.Supported := by
    intro c hc; obtain ⟨x, hx, rfl⟩ := List.mem_map.mp hc; exact hs x hx
  obtain ⟨bs, ops, hp, hr, hc⟩ := C73_supported_pipeline_runs fmt (ps.map NoiseCall.step) hs' h0
    (fun ⟨c, hc, hn⟩ => by obtain ⟨x, hx, rfl⟩ := List.mem_map.mp hc; exact hd ⟨x, hx, hn⟩) ha
  have hp' := noise_plan fmt ps [] hs
  rw [hp] at hp'
  simp only [Except.ok.injEq, Prod.mk.injEq] at hp'
  obtain ⟨rfl, rfl⟩ := hp'
  refine ⟨_, _, hp, hr, hc, fun env pid data => ?_⟩
  obtain ⟨he, -, -, rfl, -, -⟩ := Budget.init_facts h0
  obtain ⟨m1, m2, m3, m4, m5⟩ := noise_mechs ps ⟨e, d, num, ws, [], [], [], false⟩ rfl rfl
    (fun x hx hk => (hd ⟨x, hx, hk⟩).ne')
  have hlen : 0 < ps.length := List.length_pos_of_ne_nil hne
  generalize hst : (Budget.run ⟨e, d, num, ws, [], [], [], false⟩ (ps.flatMap fun x => noiseOps x.1)).1 = st at *
  have hmechs : (Budget.step st .compute).1.mechs
      = (ps.map fun x => noiseMech x.1).map (Budget.assign e d ps.length (gaussianCalls ps)) := by
    have hne' : st.mechs ≠ [] := by rw [m3]; simpa using hne
    simp only [Budget.step] at hc ⊢
    unfold Budget.computeBudgets at hc ⊢
    by_cases hchk : Budget.checkRestrictions st = false
    · simp [hchk] at hc
    · simp only [hchk, m1, hne', m2]
      simp only [m3, m4, m5, List.nil_append, (noise_weights ps).1, (noise_weights ps).2]
      simp
  have he' : (0 : ℝ) < e := by exact_mod_cast he
  have hlen' : (0 : ℝ) < ps.length := by exact_mod_cast hlen
  have hgc : ∀ x ∈ ps, x.1.kind = .gaussian → 0 < gaussianCalls ps := fun x hx hk =>
    List.length_pos_of_mem (List.mem_filter.mpr ⟨hx, by simp [hk]⟩)
  have := noise_eval (sigma := lib.sigma) hlib.gaussian.pos (eps := (e : ℝ) / ps.length) (delta := (d : ℝ) / gaussianCalls ps)
    (s := specOf (Budget.step st .compute).1) (by positivity) env pid data ps 0 0 hs
    (fun x hx hk => by
      have h1 : (0 : ℝ) < d := by exact_mod_cast hd ⟨x, hx, hk⟩
      have h2 : (0 : ℝ) < gaussianCalls ps := by exact_mod_cast hgc x hx hk
      positivity)
    (fun k x hk => by
      have hx : x ∈ ps := List.mem_of_getElem? hk
      have h1 : (ps.length : ℚ) ≠ 0 := by exact_mod_cast hlen.ne'
      rw [Nat.zero_add]
      unfold specOf
      rw [hmechs]
      simp only [List.getElem?_map, hk, Option.map_some]
      cases hkind : x.1.kind with
      | laplace =>
        refine ⟨0, ?_, fun h => nomatch h⟩
        simp [Budget.assign, noiseMech, hkind, AddNoise.mechType, Budget.Mech.useDelta, hlen.ne', hne]
      | gaussian =>
        have h2 : (gaussianCalls ps) ≠ 0 := (hgc x hx hkind).ne'
        refine ⟨_, ?_, fun _ => rfl⟩
        simp [Budget.assign, noiseMech, hkind, AddNoise.mechType, Budget.Mech.useDelta, hlen.ne', hne, h2])
  simpa using this

/-- Two calls with the numbers of users of the days 0 and 1: Laplace noise, and Gaussian noise with the triple weight. -/
def exampleNoiseCalls : List (NoiseCall (ℕ × ℕ × ℚ) ℕ) :=
  [(⟨.laplace, some 2, some 1, 1⟩, usersOn [0, 1]), (⟨.gaussian, some 2, some 1, 3⟩, usersOn [0, 1])]

/-- With the total budget (1, 1/100): the first call has Laplace noise of scale 4, the second one Gaussian noise for
(1/2, 1/100). -/
example (fmt : ℚ → String) (env : ℕ → Env ℕ) (data : List (ℕ × ℕ × ℚ)) :
    ∃ s0 bs ops, Budget.init 1 (1 / 100) none (some [1, 3]) = .ok s0 ∧
      planSteps fmt [] (exampleNoiseCalls.map NoiseCall.step) = .ok (bs, ops) ∧
      ∃ l1 l2, evalSteps exampleLibrary.sigma (specOf (Budget.step (Budget.run s0 ops).1 .compute).1) env Prod.fst data 0
          (exampleNoiseCalls.map NoiseCall.step) bs = .ok [l1, l2] ∧
        List.Forall₂ (fun y c => c.key = y.1 ∧ c.gate = .always ∧
          ∃ n, c.numbers = [n] ∧ LaplaceAround n.law (y.2 : ℚ) 4) (usersOn [0, 1] data) l1 ∧
        List.Forall₂ (fun y c => c.key = y.1 ∧ c.gate = .always ∧
          ∃ n, c.numbers = [n] ∧ GaussianAround n.law (y.2 : ℚ) (exampleLibrary.sigma (1 / 2) (1 / 100) (Real.sqrt 2)))
          (usersOn [0, 1] data) l2 := by
  have h0 : Budget.init 1 (1 / 100) none (some [1, 3]) = .ok ⟨1, 1 / 100, none, some [1, 3], [], [], [], false⟩ := by
    decide +kernel
  obtain ⟨bs, ops, hp, -, -, h⟩ := C93_add_dp_noise_is_accurate (P := ℕ) fmt exampleLibrary exampleLibrary_contract
    exampleNoiseCalls (by simp [exampleNoiseCalls])
    (by
      intro x hx
      simp only [exampleNoiseCalls, List.mem_cons, List.not_mem_nil, or_false] at hx
      rcases hx with rfl | rfl <;> exact ⟨⟨2, rfl, by norm_num⟩, ⟨1, rfl, by norm_num⟩, by norm_num⟩) h0
    (fun _ => by norm_num) ⟨by simp, by simp [exampleNoiseCalls, NoiseCall.step, Step.weight]⟩
  obtain ⟨L, hL, hF⟩ := h env Prod.fst data
  have hg : gaussianCalls exampleNoiseCalls = 1 := by decide +kernel
  rw [hg] at hF
  rcases hF with _ | ⟨h1, hF⟩
  rcases hF with _ | ⟨h2, hF⟩
  cases hF
  refine ⟨_, bs, ops, h0, hp, _, _, hL, h1.imp ?_, h2.imp ?_⟩
  · rintro y c ⟨hk, hc, n, a, b, hn, ha, hb, hacc⟩
    cases ha; cases hb
    refine ⟨hk, hc, n, hn, ?_⟩
    simp only [AddNoise.Params.Accurate, exampleNoiseCalls, List.length_cons, List.length_nil] at hacc
    norm_num at hacc
    exact hacc
  · rintro y c ⟨hk, hc, n, a, b, hn, ha, hb, hacc⟩
    cases ha; cases hb
    refine ⟨hk, hc, n, hn, ?_⟩
    simp only [AddNoise.Params.Accurate, exampleNoiseCalls, List.length_cons, List.length_nil] at hacc
    norm_num at hacc
    norm_num
    exact hacc

end PDP.EndToEnd
