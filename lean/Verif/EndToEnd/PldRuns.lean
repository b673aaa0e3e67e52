import Verif.EndToEnd.PldProps
import Verif.EndToEnd.CallsExample

/-! # When a pipeline with a PLD accountant runs, a library that keeps the promises, and a concrete pipeline (C67) -/

set_option linter.unusedSectionVars false

namespace PDP.EndToEnd

open PDP PDP.Engine MeasureTheory
open PDP.Budget (State Op MechType Out)
open PDP.Budget.Pld (PldLib composeDistributions composedEps minimumNoiseStd)
open PDP.Approx (Indist)

variable {R P K : Type} [DecidableEq P] [DecidableEq K]

/-- **C67** (which calls are accepted).  With a PLD accountant the engine accepts exactly the `aggregate` calls with public partitions
and metrics among COUNT, PRIVACY_ID_COUNT, SUM and MEAN; others raise `NotImplementedError`. -/
theorem C67_pld_accepted_calls (c : Call R K) :
    (c.pldCheck = .ok () ↔ ∃ p ps key value, c = .aggregate p (some ps) key value ∧
      ∀ m ∈ p.metrics, m = .count ∨ m = .privacyIdCount ∨ m = .sum ∨ m = .mean) ∧
    (c.pldCheck ≠ .ok () → c.pldCheck = .error .notImplemented) := by
  cases c with
  | select p key => exact ⟨⟨fun h => (by cases h), by rintro ⟨_, _, _, _, h, -⟩; cases h⟩, fun _ => rfl⟩
  | aggregate p pub key value =>
    cases pub with
    | none => exact ⟨⟨fun h => (by cases h), by rintro ⟨_, _, _, _, h, -⟩; cases h⟩, fun _ => rfl⟩
    | some ps =>
      have hm : (p.metrics.any fun m => decide (m ∉ [Metric.count, .privacyIdCount, .sum, .mean])) = true ↔
          ¬ ∀ m ∈ p.metrics, m = .count ∨ m = .privacyIdCount ∨ m = .sum ∨ m = .mean := by
        simp [List.any_eq_true]
      by_cases h : ∀ m ∈ p.metrics, m = .count ∨ m = .privacyIdCount ∨ m = .sum ∨ m = .mean
      · have hok : (Call.aggregate p (some ps) key value).pldCheck = .ok () := by
          simp only [Call.pldCheck, Validation.checkAccountant]
          rw [if_neg (by simp), if_neg (by simp), if_neg (fun hc => hm.mp hc h)]
          rfl
        exact ⟨⟨fun _ => ⟨p, ps, key, value, rfl, h⟩, fun _ => hok⟩, fun hc => absurd hok hc⟩
      · have hbad : (Call.aggregate p (some ps) key value).pldCheck = .error .notImplemented := by
          simp only [Call.pldCheck, Validation.checkAccountant]
          rw [if_neg (by simp), if_neg (by simp), if_pos (hm.mpr h)]
        refine ⟨⟨fun hc => (by rw [hbad] at hc; cases hc), ?_⟩, fun _ => hbad⟩
        rintro ⟨_, _, _, _, he, h'⟩
        cases he
        exact absurd h' h

/-- MEAN with COUNT for public partitions is accepted, VARIANCE is not. -/
example : (Call.aggregate (R := ℕ × ℕ) (K := ℕ) { metrics := [.mean, .count] } (some [1, 2]) Prod.snd fun _ => 0).pldCheck = .ok () ∧
    (Call.aggregate (R := ℕ × ℕ) (K := ℕ) { metrics := [.variance] } (some [1, 2]) Prod.snd fun _ => 0).pldCheck
      = .error .notImplemented := by decide +kernel

/-- **C67** (pipelines run).  For supported calls that the engine accepts with a PLD accountant, neither the engine nor any call
on the accountant raises an exception, and `compute_budgets` returns exactly if delta is 0, or nothing was requested, or the
epsilon that the library computes for some noise 2, 4, 8, ... is at most the total epsilon.  (By
`C67_pld_pipeline_is_differentially_private`, the evaluation then raises no exception either.) -/
theorem C67_pld_pipeline_runs (fmt : ℚ → String) (pl : PldLib) (cs : List (Call R K)) (hs : ∀ c ∈ cs, c.Supported)
    (hchk : ∀ c ∈ cs, c.pldCheck = .ok ()) {e d : ℚ} {num ws s0} (h0 : Budget.init e d num ws = .ok s0)
    (hd : (∃ c ∈ cs, c.IsGaussian) → 0 < d) (ha : AnnouncedCalls num ws cs) :
    ∃ bs ops, planCalls fmt [] cs = .ok (bs, ops) ∧ (∀ err, Out.raised err ∉ (pldRun s0 ops).2) ∧
      ((∃ fuel s, pldCompute pl fuel (pldRun s0 ops).1 = .ok s) ↔
        d = 0 ∨ (pldRun s0 ops).1.mechs = [] ∨
          ∃ (k : ℕ) (q : ℝ), composedEps pl e d (pldMechs (pldRun s0 ops).1) (2 ^ (k + 1)) = some q ∧ q ≤ e) := by
  obtain ⟨bs, ops, hp, hr, hc⟩ := C62_supported_pipeline_runs fmt cs hs h0 (by
    rintro ⟨c, hcm, hn⟩
    refine hd ⟨c, hcm, ?_⟩
    cases c with
    | select p key => have := hchk _ hcm; rw [pldCheck_select] at this; cases this
    | aggregate p pub key value =>
      obtain ⟨⟨ps, rfl⟩, -⟩ := pldCheck_spec (hchk _ hcm)
      rcases hn with hn | hn
      · exact hn
      · cases hn) ha
  obtain ⟨hplain, new, hreq, -, -, hgauss, hlg⟩ := pld_plan hs hchk hd hp
  have hready := ready_run h0 hplain (planCalls_unit cs hp) hreq hgauss
  rw [← pldRun_plain ops hplain] at hr hc
  refine ⟨bs, ops, hp, hr, ?_⟩
  generalize (pldRun s0 ops).1 = st at hready hc ⊢
  have hc' : Budget.checkRestrictions st = true ∧ st.finalized = false ∧ (st.mechs = [] ∨ st.stack = []) := by
    simp only [Budget.step, Budget.computeBudgets] at hc
    by_cases h1 : Budget.checkRestrictions st = false
    · rw [if_pos h1] at hc; simp at hc
    · rw [if_neg h1] at hc
      refine ⟨by simpa using h1, ?_⟩
      by_cases h2 : st.finalized = true
      · rw [if_pos h2] at hc; simp at hc
      · rw [if_neg h2] at hc
        refine ⟨by simpa using h2, ?_⟩
        by_contra hcon
        push Not at hcon
        simp [hcon.1, hcon.2] at hc
  obtain ⟨c1, c2, c3⟩ := hc'
  by_cases hm : st.mechs = []
  · exact ⟨fun _ => .inr (.inl hm), fun _ => ⟨0, _, by unfold pldCompute; rw [c1, c2, if_pos hm]; rfl⟩⟩
  have c4 := c3.resolve_left hm
  have hsome : ∀ σ, ∃ q, composedEps pl e d (pldMechs st) σ = some q ∧
      composeDistributions pl e d (pldMechs st) σ ≠ none := by
    intro σ
    obtain ⟨plds, q1, q2⟩ := Budget.Pld.C07_composition_is_of_the_granted_mechanisms pl (e := e) (d := d) (σ := σ) (pldMechs st) (by
      intro m hmem
      obtain ⟨m', hm', rfl⟩ := List.mem_map.mp hmem
      have ht : m'.mtype ∈ new.map fun r => toMechType r.mechanism := by
        rw [← hready.types]; exact List.mem_map_of_mem hm'
      obtain ⟨r, hrm, hrt⟩ := List.mem_map.mp ht
      dsimp only
      rw [← hrt]
      rcases hlg r hrm with h | h <;> rw [h]
      · exact .inl rfl
      · exact .inr (.inl rfl))
    rcases plds with _ | ⟨p, ps⟩
    · simp [pldMechs] at q1
      exact absurd q1 hm
    · dsimp only at q2
      unfold composedEps
      rw [q2]
      exact ⟨_, rfl, by simp⟩
  choose q hq hn using hsome
  have horc : (fun σ => (composedEps pl e d (pldMechs st) σ).getD 0) = q := by
    funext σ; rw [hq]; rfl
  have hcomp : ∀ fuel, pldCompute pl fuel st = match minimumNoiseStd q e d (pldMechs st) fuel with
      | none => .error .searching
      | some σ => .ok (pldSpecs st σ) := by
    intro fuel
    unfold pldCompute
    rw [hready.te, hready.td, horc, c1, c2, c4, if_neg hm, if_neg (by simp), if_neg (by simp), if_neg (by simp),
      if_neg (by
        rintro ⟨-, h⟩
        exact hn 2 (Option.isNone_iff_eq_none.mp h))]
    rfl
  by_cases hz : d = 0
  · refine ⟨fun _ => .inl hz, fun _ => ?_⟩
    obtain ⟨σ, hσ⟩ : ∃ σ, minimumNoiseStd q e d (pldMechs st) 0 = some σ := by
      unfold minimumNoiseStd
      rw [if_pos (by exact_mod_cast hz)]
      exact ⟨_, rfl⟩
    exact ⟨0, pldSpecs st σ, by rw [hcomp, hσ]⟩
  · have hzR : (d : ℝ) ≠ 0 := by exact_mod_cast hz
    have hiff := Budget.Pld.C06_search_terminates_iff (eps := q) (total := (e : ℝ))
    constructor
    · rintro ⟨fuel, s, h⟩
      rw [hcomp] at h
      right; right
      unfold minimumNoiseStd at h
      rw [if_neg hzR] at h
      rcases hf : Budget.Pld.findMinimum q e fuel with _ | σ
      · rw [hf] at h; cases h
      · obtain ⟨k, hk⟩ := hiff.mp ⟨fuel, σ, hf⟩
        exact ⟨k, _, hq _, hk⟩
    · rintro (h | h | ⟨k, x, hx, hle⟩)
      · exact absurd h hz
      · exact absurd h hm
      · rw [hq] at hx
        cases hx
        obtain ⟨fuel, σ, hf⟩ := hiff.mpr ⟨k, hle⟩
        exact ⟨fuel, pldSpecs st σ, by rw [hcomp]; unfold minimumNoiseStd; rw [if_neg hzR, hf]⟩

/-! ### Post-aggregation thresholding -/

/-- Budgets of a PLD accountant never have an epsilon, except for GENERIC mechanisms. -/
theorem pld_no_thresholding {pl : PldLib} {fuel : ℕ} {st : State} {s : Specs} (hc : pldCompute pl fuel st = .ok s) (i : ℕ)
    (sn : Sens) : ∃ err, Engine.Mechanism.createThresholding (s i) sn = .error err := by
  have h : (s i).type = .generic ∨ (s i).eps = none := by
    unfold pldCompute at hc
    split_ifs at hc with h1 h2 h3
    · cases hc; exact .inl rfl
    · rcases hσ : minimumNoiseStd (fun σ => (composedEps pl st.totalEps st.totalDelta (pldMechs st) σ).getD 0) st.totalEps
        st.totalDelta (pldMechs st) fuel with _ | σ
      · rw [hσ] at hc; cases hc
      · rw [hσ] at hc
        cases hc
        unfold pldSpecs
        rcases (pldMechs st)[i]? with _ | m
        · exact .inl rfl
        · dsimp only
          by_cases hg : m.mtype = .generic
          · exact .inl hg
          · right
            simp [Budget.Pld.grant, hg]
  unfold Engine.Mechanism.createThresholding
  rcases h with h | h
  · rw [h]; exact ⟨_, rfl⟩
  · rw [h]
    rcases Engine.Mechanism.toStrategy (s i).type with err | t
    · exact ⟨_, rfl⟩
    · exact ⟨_, rfl⟩

theorem mapM_error {α β ε : Type} (f : α → Except ε β) (h : ∀ a, ∃ e, f a = .error e) {l : List α} (hl : l ≠ []) :
    ∃ e, l.mapM f = .error e := by
  cases l with
  | nil => exact absurd rfl hl
  | cons a l =>
    obtain ⟨e, he⟩ := h a
    exact ⟨e, by rw [List.mapM_cons, he]; rfl⟩

/-- **C67** (defect).  The engine accepts `post_aggregation_thresholding` with a PLD accountant, but then the evaluation always
fails: the accountant gives the thresholding mechanism a noise standard deviation and neither epsilon nor delta. -/
theorem C67_pld_thresholding_fails (fmt : ℚ → String) (lib : Library) {pl : PldLib} {p : Params} (hb : p.BoundsValid)
    (hpt : p.postThresholding = true) {ps : List K} (hps : ps ≠ []) {key : R → K} {value : R → ℚ}
    {rs rs' : List Request} {b : Built} (hbuild : build fmt rs (.aggregate p (some ps) key value) = (.ok b, rs'))
    {fuel : ℕ} {st : State} {s : Specs} (hc : pldCompute pl fuel st = .ok s) (env : Env K) (henv : env.Lawful)
    (pid : R → P) (data : List R) (hdata : p.publicFiltered = true → ∀ r ∈ data, key r ∈ ps) :
    ∃ err, evalCall lib.sigma s env pid b data (.aggregate p (some ps) key value) = .error err := by
  obtain ⟨-, hsel⟩ := build_aggregate hbuild
  have hsp : selectsPrivately p (some ps) = false := by simp [selectsPrivately]
  rw [hsp] at hsel
  have hselN : b.selection = none := by simpa using hsel
  have hgate : ∀ acc, ∃ err, gateOf lib.sigma s p b acc = .error err := by
    intro acc
    unfold gateOf
    rw [hselN, hpt]
    simp only [if_true]
    rcases thresholdPart lib.sigma p b.parts acc.2 with _ | ⟨i, n⟩
    · exact ⟨_, rfl⟩
    · dsimp only
      unfold thresholdGate
      rcases sensPrivacyIdCount p with e | sn
      · exact ⟨_, rfl⟩
      · obtain ⟨err, he⟩ := pld_no_thresholding hc i sn
        dsimp only
        rw [he]
        exact ⟨_, rfl⟩
  obtain ⟨out, en, h1, h2, h3, -⟩ := C23_public_partitions_are_the_output env.backend henv.backend p hb
    (combinersOf lib.sigma p b.parts) (env.combine (Combiner.compound (combinersOf lib.sigma p b.parts)).merge) (henv.combine _)
    (fun _ _ => true) ps (extract pid key value data) (fun h r hr => by
      obtain ⟨x, hx, rfl⟩ := List.mem_map.mp hr
      exact hdata h x hx)
  simp only [evalCall]
  rw [h1]
  refine mapM_error _ ?_ ?_
  · intro e
    obtain ⟨err, he⟩ := hgate e.2
    exact ⟨err, by unfold candidate; rw [he]⟩
  · rintro rfl
    obtain ⟨k, hk⟩ := List.exists_mem_of_ne_nil ps hps
    simpa using (h3 k).mpr hk

/-! ### A library that keeps the promises -/

/-- Privacy loss distributions as functions from delta to epsilon, with basic composition. -/
noncomputable def refPld : PldLib where
  PLD := ℝ → ℝ
  laplace b := fun _ => 1 / b
  gaussian σ := fun d => 1 / σ ^ 2 + 2 / (σ * Real.sqrt d)
  generic e _ := fun _ => e
  compose f g := fun d => f (d / 2) + g (d / 2)
  epsForDelta f d := f d

/-- The reference library keeps the promises. -/
noncomputable def refContract : PldContract refPld where
  Dominates f {X} _ μ ν := ∀ d : ℝ, 0 < d → Indist (f d) d μ ν
  laplace := by
    intro b x hb hx ι _ a a' h d hd
    have := laplace_group (e := 1 / b) (by positivity) hx a a' h x
    rw [show x / (1 / b) = x * b by field_simp] at this
    exact this.mono le_rfl hd.le
  gaussian := by
    intro σ x hσ hx ι _ a a' h d hd
    have hsd : 0 < Real.sqrt d := Real.sqrt_pos.mpr hd
    have he : 0 < 1 / σ ^ 2 + 2 / (σ * Real.sqrt d) := by positivity
    have hv : ((Real.toNNReal ((σ * x) ^ 2) : NNReal) : ℝ) = (σ * x) ^ 2 := Real.coe_toNNReal _ (by positivity)
    have := gaussian_indist he hd hx (v := Real.toNNReal ((σ * x) ^ 2)) (by
      rw [hv]
      have : (σ * x) ^ 2 * (1 / σ ^ 2 + 2 / (σ * Real.sqrt d)) = x ^ 2 + (σ * x) ^ 2 * (2 / (σ * Real.sqrt d)) := by
        field_simp
      rw [this]
      have : 0 ≤ (σ * x) ^ 2 * (2 / (σ * Real.sqrt d)) := by positivity
      linarith) (by
      rw [hv]
      have h1 : (2 / (σ * Real.sqrt d)) ^ 2 ≤ (1 / σ ^ 2 + 2 / (σ * Real.sqrt d)) ^ 2 := by
        apply pow_le_pow_left₀ (by positivity)
        have : 0 ≤ 1 / σ ^ 2 := by positivity
        linarith
      have h2 : d * ((σ * x) ^ 2 * (2 / (σ * Real.sqrt d)) ^ 2) = 4 * x ^ 2 := by
        rw [div_pow, mul_pow σ (Real.sqrt d), Real.sq_sqrt hd.le]
        field_simp
        ring
      rw [← h2]
      gcongr) a a' h
    simp only [noisy_gaussian (mul_pos hσ hx)]
    exact this
  compose := by
    intro p q X Y _ _ μ ν μ' ν' _ _ _ _ h h' d hd
    have := (h (d / 2) (by linarith)).prod (h' (d / 2) (by linarith)) (by linarith) (by linarith)
    rw [add_halves] at this
    exact this
  map := by
    intro p X Y _ _ μ ν f hf h d hd
    exact (h d hd).map hf
  sound := by
    intro p X _ μ ν _ _ h d hd _
    exact h d hd

open Filter Topology in
/-- The pieces of the reference library for one mechanism get small with large noise. -/
theorem refPld_step (e d : ℝ) {m : Budget.Pld.Mech} (ht : m.mtype = .laplace ∨ m.mtype = .gaussian)
    (hs : m.sensitivity = 1) : ∃ f : ℝ → ℝ → ℝ, (∀ d, 0 < d → Tendsto (fun σ => f σ d) atTop (𝓝 0)) ∧
      ∀ σ (st : Option (ℝ → ℝ) × Option (ℝ → ℝ)), Budget.Pld.composeStep refPld e d σ st m
        = (some (match st.1 with | none => f σ | some c => refPld.compose c (f σ)), some (f σ)) := by
  have hlim : ∀ c : ℝ, Tendsto (fun σ : ℝ => c / σ) atTop (𝓝 0) := fun c => tendsto_const_nhds.div_atTop tendsto_id
  rcases ht with ht | ht
  · refine ⟨fun σ _ => 1 / (m.sensitivity * σ / √2 / m.weight), fun d _ => ?_, fun σ st => ?_⟩
    · have : (fun σ => 1 / (m.sensitivity * σ / √2 / m.weight)) = fun σ => (√2 * m.weight) / σ := by
        funext σ; rw [hs, one_mul, one_div, inv_div, div_div_eq_mul_div, mul_comm]
      rw [this]; exact hlim _
    · rcases st with ⟨_ | c, x⟩ <;> simp [Budget.Pld.composeStep, ht, refPld]
  · refine ⟨fun σ d => 1 / (m.sensitivity * σ / m.weight) ^ 2 + 2 / (m.sensitivity * σ / m.weight * Real.sqrt d),
      fun d hd => ?_, fun σ st => ?_⟩
    · have : (fun σ => 1 / (m.sensitivity * σ / m.weight) ^ 2 + 2 / (m.sensitivity * σ / m.weight * Real.sqrt d))
          = fun σ => (m.weight / σ) * (m.weight / σ) + (2 * m.weight / Real.sqrt d) / σ := by
        funext σ
        rw [hs, one_mul, div_pow, one_div_div, div_mul_div_comm, pow_two, pow_two]
        congr 1
        rw [div_mul_eq_mul_div, div_div_eq_mul_div, div_div, mul_comm σ]
      rw [this]
      simpa using ((hlim m.weight).mul (hlim m.weight)).add (hlim _)
    · rcases st with ⟨_ | c, x⟩ <;> simp [Budget.Pld.composeStep, ht, refPld]

open Filter Topology in
theorem refPld_fold (e d : ℝ) (ms : List Budget.Pld.Mech) (h : ∀ m ∈ ms, (m.mtype = .laplace ∨ m.mtype = .gaussian) ∧
      0 < m.weight ∧ m.sensitivity = 1) : ∀ c x : ℝ → ℝ → ℝ, (∀ d, 0 < d → Tendsto (fun σ => c σ d) atTop (𝓝 0)) →
    ∃ F : ℝ → ℝ → ℝ, (∀ σ, (ms.foldl (Budget.Pld.composeStep refPld e d σ) (some (c σ), some (x σ))).1 = some (F σ)) ∧
      ∀ d, 0 < d → Tendsto (fun σ => F σ d) atTop (𝓝 0) := by
  induction ms with
  | nil => intro c x hc; exact ⟨c, fun _ => rfl, hc⟩
  | cons m ms ih =>
    intro c x hc
    obtain ⟨h1, -, h3⟩ := h m (by simp)
    obtain ⟨f, g1, g2⟩ := refPld_step e d h1 h3
    obtain ⟨F, k1, k2⟩ := ih (fun m hm => h m (by simp [hm])) (fun σ d => c σ (d / 2) + f σ (d / 2)) f (by
      intro d hd
      simpa using (hc (d / 2) (by linarith)).add (g1 (d / 2) (by linarith)))
    exact ⟨F, fun σ => (congrArg (fun st => (ms.foldl (Budget.Pld.composeStep refPld e d σ) st).1) (g2 σ _)).trans (k1 σ), k2⟩

open Filter Topology in
/-- With the reference library the search for the noise always terminates. -/
theorem refPld_terminates {e d : ℝ} (he : 0 < e) (hd : 0 < d) {ms : List Budget.Pld.Mech} (hne : ms ≠ [])
    (h : ∀ m ∈ ms, (m.mtype = .laplace ∨ m.mtype = .gaussian) ∧ 0 < m.weight ∧ m.sensitivity = 1) :
    ∃ (k : ℕ) (q : ℝ), composedEps refPld e d ms (2 ^ (k + 1)) = some q ∧ q ≤ e := by
  obtain ⟨F, h1, h2⟩ : ∃ F : ℝ → ℝ → ℝ, (∀ σ, composeDistributions refPld e d ms σ = some (F σ)) ∧
      ∀ d, 0 < d → Tendsto (fun σ => F σ d) atTop (𝓝 0) := by
    rcases ms with _ | ⟨m, ms⟩
    · exact absurd rfl hne
    · obtain ⟨f1, -, f3⟩ := h m (by simp)
      obtain ⟨f, g1, g2⟩ := refPld_step e d f1 f3
      obtain ⟨F, k1, k2⟩ := refPld_fold e d ms (fun m hm => h m (by simp [hm])) f f g1
      exact ⟨F, fun σ => (congrArg (fun st => (ms.foldl (Budget.Pld.composeStep refPld e d σ) st).1) (g2 σ _)).trans (k1 σ), k2⟩
  have hpow : Tendsto (fun k : ℕ => (2 : ℝ) ^ (k + 1)) atTop atTop :=
    (tendsto_pow_atTop_atTop_of_one_lt (by norm_num : (1 : ℝ) < 2)).comp (tendsto_add_atTop_nat 1)
  have := ((h2 d hd).comp hpow).eventually (ge_mem_nhds he)
  obtain ⟨k, hk⟩ := this.exists
  exact ⟨k, F (2 ^ (k + 1)) d, by unfold composedEps; exact congrArg (Option.map fun p => refPld.epsForDelta p d) (h1 _), hk⟩

/-! ### A concrete pipeline -/

/-- COUNT and PRIVACY_ID_COUNT with Gaussian noise. -/
def examplePldGaussian : Params where
  metrics := [.count, .privacyIdCount]
  noiseKind := .gaussian
  maxPartitions := some 2
  maxPerPartition := some 3

/-- MEAN with Laplace noise and double weight. -/
def examplePldLaplace : Params where
  metrics := [.mean]
  maxPartitions := some 1
  maxPerPartition := some 2
  minValue := some 0
  maxValue := some 5
  budgetWeight := 2

/-- Two calls on rows (user, day, amount) with public days. -/
def examplePldCalls : List (Call (ℕ × ℕ × ℚ) ℕ) :=
  [.aggregate examplePldGaussian (some [0, 1, 2]) (fun r => r.2.1) (fun r => r.2.2),
   .aggregate examplePldLaplace (some [5, 6]) (fun r => r.2.1) (fun r => r.2.2)]

theorem examplePldCalls_supported : ∀ c ∈ examplePldCalls, c.Supported := by
  intro c hc
  simp only [examplePldCalls, List.mem_cons, List.not_mem_nil, or_false] at hc
  rcases hc with rfl | rfl
  · show SupportedAggregate _ _
    refine ⟨by simp [Params.BoundsValid, examplePldGaussian], by simp [examplePldGaussian], by simp [examplePldGaussian],
      by simp [examplePldGaussian], by simp [examplePldGaussian], by simp [examplePldGaussian], by simp [examplePldGaussian],
      by simp [examplePldGaussian], by simp⟩
  · show SupportedAggregate _ _
    refine ⟨by simp [Params.BoundsValid, examplePldLaplace], by simp [examplePldLaplace], by simp [examplePldLaplace],
      by simp [examplePldLaplace], by simp [examplePldLaplace], fun _ _ => ⟨0, 5, rfl, rfl, by norm_num⟩,
      by simp [examplePldLaplace], by simp [examplePldLaplace], by simp⟩

theorem examplePldCalls_accepted : ∀ c ∈ examplePldCalls, c.pldCheck = .ok () := by
  intro c hc
  simp only [examplePldCalls, List.mem_cons, List.not_mem_nil, or_false] at hc
  rcases hc with rfl | rfl <;> rfl

/-- The hypotheses of C67 hold for this pipeline with total budget (1, 1/1000), on every dataset and for every user: the graph is
built, the accountant finds the noise, and the released numbers are private. -/
example (fmt : ℚ → String) (data : List (ℕ × ℕ × ℚ)) (u : ℕ) :
    ∃ s0 bs ops fuel s, Budget.init 1 (1 / 1000) none none = .ok s0 ∧ planCalls fmt [] examplePldCalls = .ok (bs, ops) ∧
      (pldRun s0 ops).1.mechs.map Budget.Mech.mtype = [.gaussian, .gaussian, .laplace, .laplace] ∧
      pldCompute refPld fuel (pldRun s0 ops).1 = .ok s ∧
      ∃ L L' : Unit → List (List (Candidate ℕ)),
        (∀ ω, evalCalls exampleLibrary.sigma s (fun _ => exampleEnv firstRng) Prod.fst data 0 examplePldCalls bs = .ok (L ω) ∧
          evalCalls exampleLibrary.sigma s (fun _ => exampleEnv firstRng) Prod.fst (removeId Prod.fst u data) 0 examplePldCalls bs
            = .ok (L' ω)) ∧
        ∀ (U : Finset (ℕ × ℕ)) (S : Finset (ℕ × ℕ)), ∀ A, MeasurableSet A →
          observedLaw exampleLibrary U S (L ()) A
            ≤ ENNReal.ofReal (Real.exp 1) * observedLaw exampleLibrary U S (L' ()) A + ENNReal.ofReal (1 / 1000) := by
  obtain ⟨s0, h0⟩ : ∃ s0, Budget.init 1 (1 / 1000) none none = .ok s0 := by norm_num [Budget.init]
  obtain ⟨bs, ops, hp, -, hc⟩ := C67_pld_pipeline_runs fmt refPld examplePldCalls examplePldCalls_supported
    examplePldCalls_accepted h0 (fun _ => by norm_num) ⟨by simp, by simp⟩
  obtain ⟨hplain, new, hreq, hsp, -, hgauss, hlg⟩ := pld_plan (d := 1 / 1000) examplePldCalls_supported examplePldCalls_accepted
    (fun _ => by norm_num) hp
  have hready := ready_run h0 hplain (planCalls_unit _ hp) hreq hgauss
  have htypes : new.map (fun r => toMechType r.mechanism) = [.gaussian, .gaussian, .laplace, .laplace] := by
    have hp' := hp
    rw [show planCalls fmt [] examplePldCalls = .ok (_, _) from rfl] at hp'
    cases hp'
    have := congrArg (List.map Prod.fst) hreq
    rw [List.map_map] at this
    exact this.symm
  have hm : (pldRun s0 ops).1.mechs ≠ [] := by
    intro h
    have := hready.types
    rw [h, htypes] at this
    simp at this
  obtain ⟨fuel, s, hs⟩ := hc.mpr (.inr (.inr (refPld_terminates (by norm_num) (by norm_num) (by simpa [pldMechs] using hm) (by
    intro m hmem
    obtain ⟨m', hm', rfl⟩ := List.mem_map.mp hmem
    refine ⟨?_, by dsimp only; exact_mod_cast hready.weights m' hm', by dsimp only; rw [hready.sens m' hm']; norm_num⟩
    have ht : m'.mtype ∈ new.map fun r => toMechType r.mechanism := by
      rw [← hready.types]; exact List.mem_map_of_mem hm'
    obtain ⟨r, hrm, hrt⟩ := List.mem_map.mp ht
    dsimp only
    rw [← hrt]
    rcases hlg r hrm with h | h <;> rw [h]
    · exact .inl rfl
    · exact .inr rfl))))
  obtain ⟨L, L', h1, h2⟩ := C67_pld_pipeline_is_differentially_private fmt exampleLibrary refContract h0 examplePldCalls
    examplePldCalls_supported examplePldCalls_accepted (fun _ => by norm_num) hp hs (Measure.dirac ())
    (fun (_ : Unit) _ => exampleEnv firstRng) (fun b j => exampleEnv_lawful _) Prod.fst data u (by
      intro c hc
      simp only [examplePldCalls, List.mem_cons, List.not_mem_nil, or_false] at hc
      rcases hc with rfl | rfl
      · exact ⟨⟨fun h => by simp [examplePldGaussian] at h, fun h => by simp [examplePldGaussian] at h⟩,
          fun h => by simp [examplePldGaussian] at h⟩
      · exact ⟨⟨fun h => by simp [examplePldLaplace] at h, fun h => by simp [examplePldLaplace] at h⟩,
          fun h => by simp [examplePldLaplace] at h⟩)
  refine ⟨s0, bs, ops, fuel, s, h0, hp, by rw [hready.types, htypes], hs, L, L', h1, fun U S A hA => ?_⟩
  have := ((h2 U S).2 A hA).1
  simpa using this

/-- PRIVACY_ID_COUNT with thresholding. -/
def examplePldThresholded : Params where
  metrics := [.privacyIdCount]
  maxPartitions := some 2
  maxPerPartition := some 1
  postThresholding := true

/-- The engine accepts the call, `compute_budgets` succeeds whatever the library returns (with delta 0), and the evaluation
fails. -/
example (fmt : ℚ → String) (pl : PldLib) (data : List (ℕ × ℕ × ℚ)) :
    let c : Call (ℕ × ℕ × ℚ) ℕ := .aggregate examplePldThresholded (some [0, 1]) (fun r => r.2.1) (fun r => r.2.2)
    c.pldCheck = .ok () ∧ ∃ s0 b ops s err, Budget.init 1 0 none none = .ok s0 ∧ planCalls fmt [] [c] = .ok ([b], ops) ∧
      pldCompute pl 0 (pldRun s0 ops).1 = .ok s ∧
      evalCall exampleLibrary.sigma s (exampleEnv firstRng) Prod.fst b data c = .error err := by
  intro c
  refine ⟨rfl, ?_⟩
  obtain ⟨s0, h0⟩ : ∃ s0, Budget.init 1 0 none none = .ok s0 := by norm_num [Budget.init]
  have hp : planCalls fmt [] [c] = .ok (_, _) := rfl
  obtain ⟨-, -, -, hs0, -⟩ := Budget.init_facts h0
  obtain ⟨s, hs⟩ : ∃ s, pldCompute pl 0 (pldRun s0 (callOps (1 : ℚ) [⟨.laplaceThresholding, 1⟩])).1 = .ok s := by
    rw [hs0]
    have htd : (pldRun ⟨1, 0, none, none, [], [], [], false⟩ (callOps (1 : ℚ) [⟨.laplaceThresholding, 1⟩])).1.totalDelta = 0 := by
      decide +kernel
    unfold pldCompute
    rw [if_neg (by decide +kernel), if_neg (by decide +kernel), if_neg (by decide +kernel), if_neg (by decide +kernel),
      if_neg (fun h => h.1 htd)]
    unfold minimumNoiseStd
    rw [if_pos (by rw [htd]; norm_num)]
    exact ⟨_, rfl⟩
  obtain ⟨err, he⟩ := C67_pld_thresholding_fails fmt exampleLibrary (p := examplePldThresholded) (pl := pl)
    (by simp [Params.BoundsValid, examplePldThresholded]) rfl (ps := [0, 1]) (by simp) (key := fun r : ℕ × ℕ × ℚ => r.2.1)
    (value := fun r => r.2.2) (rs := []) rfl hs (exampleEnv firstRng) (exampleEnv_lawful _) Prod.fst data
    (fun h => by simp [examplePldThresholded] at h)
  exact ⟨s0, _, _, s, err, h0, hp, hs, he⟩

theorem compose_none_iff (pl : PldLib) (e d σ : ℝ) (ms : List Budget.Pld.Mech) :
    composeDistributions pl e d ms σ = none ↔ ∀ m ∈ ms, m.mtype = .laplaceThresholding ∨ m.mtype = .gaussianThresholding := by
  have keep : ∀ (ms : List Budget.Pld.Mech) (st : Option pl.PLD × Option pl.PLD), st.1 ≠ none →
      (ms.foldl (Budget.Pld.composeStep pl e d σ) st).1 ≠ none := by
    intro ms
    induction ms with
    | nil => intro st h; exact h
    | cons m ms ih =>
      intro st h
      refine ih _ ?_
      obtain ⟨c, hc⟩ := Option.ne_none_iff_exists'.mp h
      unfold Budget.Pld.composeStep
      dsimp only
      rw [hc]
      split
      · rename_i heq; cases heq
      · simp
      · simp
  unfold composeDistributions
  induction ms with
  | nil => simp
  | cons m ms ih =>
    rw [List.foldl_cons]
    by_cases hm : m.mtype = .laplaceThresholding ∨ m.mtype = .gaussianThresholding
    · have : Budget.Pld.composeStep pl e d σ (none, none) m = (none, none) := by
        rcases hm with hm | hm <;> simp [Budget.Pld.composeStep, hm]
      rw [this]
      refine ih.trans ⟨fun h m' hm' => ?_, fun h m' hm' => h m' (by simp [hm'])⟩
      rcases List.mem_cons.mp hm' with rfl | hm'
      · exact hm
      · exact h m' hm'
    · have hne : (Budget.Pld.composeStep pl e d σ (none, none) m).1 ≠ none := by
        cases ht : m.mtype <;> simp [Budget.Pld.composeStep, ht] <;> simp [ht] at hm
      constructor
      · intro h; exact absurd h (keep ms _ hne)
      · intro h; exact absurd (h m (by simp)) hm

/-- **C67** (only thresholding).  `compute_budgets` of the PLD accountant fails with an `AttributeError` (of `None`) exactly if the
budget has a positive delta and all requests, at least one, were for thresholding mechanisms, outside of open scopes and at the
first permitted call. -/
theorem C67_pld_attribute_error (pl : PldLib) (fuel : ℕ) (s : State) :
    pldCompute pl fuel s = .error .attributeError ↔
      Budget.checkRestrictions s = true ∧ s.finalized = false ∧ s.mechs ≠ [] ∧ s.stack = [] ∧ s.totalDelta ≠ 0 ∧
        ∀ m ∈ s.mechs, m.mtype = .laplaceThresholding ∨ m.mtype = .gaussianThresholding := by
  have hall : (composeDistributions pl s.totalEps s.totalDelta (pldMechs s) 2).isNone = true ↔
      ∀ m ∈ s.mechs, m.mtype = .laplaceThresholding ∨ m.mtype = .gaussianThresholding := by
    rw [Option.isNone_iff_eq_none, compose_none_iff]
    simp [pldMechs]
  unfold pldCompute
  by_cases h1 : Budget.checkRestrictions s = false
  · rw [if_pos h1]; simp [h1]
  rw [if_neg h1]
  have h1' : Budget.checkRestrictions s = true := by simpa using h1
  by_cases h2 : s.finalized = true
  · rw [if_pos h2]; simp [h2]
  rw [if_neg h2]
  have h2' : s.finalized = false := by simpa using h2
  by_cases h3 : s.mechs = []
  · rw [if_pos h3]; simp [h3]
  rw [if_neg h3]
  by_cases h4 : s.stack ≠ []
  · rw [if_pos h4]
    simp only [ne_eq] at h4
    simp [h4]
  rw [if_neg h4]
  have h4' : s.stack = [] := by simpa using h4
  by_cases h5 : s.totalDelta ≠ 0 ∧ (composeDistributions pl s.totalEps s.totalDelta (pldMechs s) 2).isNone = true
  · rw [if_pos h5]
    exact ⟨fun _ => ⟨h1', h2', h3, h4', h5.1, hall.mp h5.2⟩, fun _ => rfl⟩
  · rw [if_neg h5]
    constructor
    · intro h
      split at h <;> cases h
    · rintro ⟨-, -, -, -, g5, g6⟩
      exact absurd ⟨g5, hall.mpr g6⟩ h5

/-- One thresholding mechanism with the budget (1, 1/1000). -/
example (pl : PldLib) (fuel : ℕ) :
    pldCompute pl fuel ⟨1, 1 / 1000, none, none, [], [], [⟨.laplaceThresholding, 1, 1, 1, none, none⟩], false⟩ = .error .attributeError :=
  (C67_pld_attribute_error pl fuel _).mpr ⟨by decide +kernel, rfl, by simp, rfl, by norm_num, by simp⟩

/-- **C67.**  Requests to the PLD accountant: a request is granted exactly if budgets are not computed yet, the mechanism is
applied once, no noise deviation is asked for, and it is not Gaussian noise without delta.  A granted request adds one
mechanism, also to the open scopes; a rejected one changes nothing. -/
theorem C67_pld_requests (s : State) (t : MechType) (sens w : ℚ) (count : ℤ) (noiseStd : Option ℚ) :
    ((∃ i, (pldStep s (.request t sens w count noiseStd)).2 = .spec i) ↔
      s.finalized = false ∧ count = 1 ∧ noiseStd = none ∧ ¬ (t = .gaussian ∧ s.totalDelta = 0)) ∧
    (∀ i, (pldStep s (.request t sens w count noiseStd)).2 = .spec i → i = s.mechs.length ∧
      (pldStep s (.request t sens w count noiseStd)).1.mechs = s.mechs ++ [⟨t, sens, w, 1, none, none⟩] ∧
      ∀ sc ∈ (pldStep s (.request t sens w count noiseStd)).1.stack, i ∈ sc.mechs) ∧
    (∀ e, (pldStep s (.request t sens w count noiseStd)).2 = .raised e →
      (pldStep s (.request t sens w count noiseStd)).1 = s) := by
  simp only [pldStep, pldRequest]
  by_cases h1 : s.finalized = true
  · simp [h1]
  by_cases h2 : count ≠ 1 ∨ noiseStd.isSome = true
  · rw [if_neg h1, if_pos h2]
    refine ⟨⟨fun h => ?_, fun h => ?_⟩, fun i h => by simp at h, fun e _ => rfl⟩
    · simp at h
    · rcases h2 with h2 | h2
      · exact absurd h.2.1 h2
      · simp [h.2.2.1] at h2
  rw [if_neg h1, if_neg h2]
  have h1' : s.finalized = false := by simpa using h1
  push Not at h2
  have hn : noiseStd = none := by
    cases noiseStd with
    | none => rfl
    | some x => simp at h2
  by_cases h3 : t = .gaussian ∧ s.totalDelta = 0
  · rw [if_pos h3]
    exact ⟨⟨fun h => by simp at h, fun h => absurd h3 h.2.2.2⟩, fun i h => by simp at h, fun e _ => rfl⟩
  · rw [if_neg h3]
    refine ⟨⟨fun _ => ⟨h1', h2.1, hn, h3⟩, fun _ => ⟨_, rfl⟩⟩, fun i h => ?_, fun e h => by simp at h⟩
    obtain rfl : s.mechs.length = i := by simpa using h
    refine ⟨rfl, rfl, fun sc hsc => ?_⟩
    simp only [Budget.register, List.mem_map] at hsc
    obtain ⟨sc', _, rfl⟩ := hsc
    simp

/-- A count with Laplace noise inside a scope is granted; with a given noise deviation it is not. -/
example : (pldStep ⟨1, 0, none, none, [], [⟨1, []⟩], [], false⟩ (.request .laplace 1 1 1 none)).2 = .spec 0 ∧
    (pldStep ⟨1, 0, none, none, [], [⟨1, []⟩], [], false⟩ (.request .laplace 1 1 1 (some 1))).2 = .raised .notImplemented := by
  decide +kernel

end PDP.EndToEnd
