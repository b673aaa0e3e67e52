import Verif.EndToEnd.CallsExample
import Verif.PrivateBounds.L0

/-!
# Property C66: a privately chosen bound followed by a pipeline

`DPEngine.calculate_private_contribution_bounds` (`dp_engine.py:452-504`) spends `calculation_eps` and does not request it from the
accountant; its result is then used as `max_partitions_contributed` of aggregations (`aggregate_params.py:136-181`).
-/

set_option linter.unusedVariables false

namespace PDP.EndToEnd

open PDP.Engine.AddNoise (specOf)
open PDP PDP.Engine MeasureTheory
open PDP.Histogram
open PDP.PrivateBounds

variable {R P K : Type} [DecidableEq P] [DecidableEq K]

/-! ### Specification -/

/-- Probability of an event on the chosen bound and what is released with it: the bound is one of `candidates` with the
probabilities `probs`, and with the bound `k` the event has probability `f k`. -/
noncomputable def withChosen (candidates : List ℕ) (probs : List ℝ) (f : ℕ → ENNReal) : ENNReal :=
  ((candidates.zip probs).map fun x => ENNReal.ofReal x.2 * f x.1).sum

/-! ### Lemmas -/

theorem withChosen_map (c : List ℕ) (g : ℕ → ℝ) (f : ℕ → ENNReal) :
    withChosen c (c.map g) f = (c.map fun k => ENNReal.ofReal (g k) * f k).sum := by
  unfold withChosen
  induction c with
  | nil => rfl
  | cons a c ih => simp only [List.map_cons, List.zip_cons_cons, List.sum_cons, ih]

theorem sum_ofReal (c : List ℕ) (g : ℕ → ℝ) (hg : ∀ k ∈ c, 0 ≤ g k) :
    (c.map fun k => ENNReal.ofReal (g k)).sum = ENNReal.ofReal (c.map g).sum := by
  induction c with
  | nil => simp
  | cons a c ih =>
    simp only [List.map_cons, List.sum_cons]
    rw [ih fun k hk => hg k (by simp [hk]), ENNReal.ofReal_add (hg a (by simp))]
    apply List.sum_nonneg
    intro x hx
    obtain ⟨k, hk, rfl⟩ := List.mem_map.mp hx
    exact hg k (by simp [hk])

/-- Adaptive composition: a choice with ratio `exp a` followed by `(e, d)`-indistinguishable results. -/
theorem compose_choice (c : List ℕ) (g h : ℕ → ℝ) (hg : ∀ k ∈ c, 0 ≤ g k) (hsum : (c.map g).sum = 1) (a e d : ℝ)
    (hgh : ∀ k ∈ c, g k ≤ Real.exp a * h k) (x y : ℕ → ENNReal)
    (hxy : ∀ k ∈ c, x k ≤ ENNReal.ofReal (Real.exp e) * y k + ENNReal.ofReal d) :
    withChosen c (c.map g) x ≤ ENNReal.ofReal (Real.exp (a + e)) * withChosen c (c.map h) y + ENNReal.ofReal d := by
  rw [withChosen_map, withChosen_map]
  have h1 : ∀ k ∈ c, ENNReal.ofReal (g k) * x k ≤
      ENNReal.ofReal (Real.exp (a + e)) * (ENNReal.ofReal (h k) * y k) + ENNReal.ofReal (g k) * ENNReal.ofReal d := by
    intro k hk
    calc ENNReal.ofReal (g k) * x k
        ≤ ENNReal.ofReal (g k) * (ENNReal.ofReal (Real.exp e) * y k + ENNReal.ofReal d) := by gcongr; exact hxy k hk
      _ = ENNReal.ofReal (g k) * (ENNReal.ofReal (Real.exp e) * y k) + ENNReal.ofReal (g k) * ENNReal.ofReal d := mul_add _ _ _
      _ ≤ ENNReal.ofReal (Real.exp a * h k) * (ENNReal.ofReal (Real.exp e) * y k) + ENNReal.ofReal (g k) * ENNReal.ofReal d := by
          gcongr; exact hgh k hk
      _ = _ := by
          rw [Real.exp_add, ENNReal.ofReal_mul (Real.exp_pos a).le, ENNReal.ofReal_mul (Real.exp_pos a).le]
          ring
  calc (c.map fun k => ENNReal.ofReal (g k) * x k).sum
      ≤ (c.map fun k => ENNReal.ofReal (Real.exp (a + e)) * (ENNReal.ofReal (h k) * y k)
          + ENNReal.ofReal (g k) * ENNReal.ofReal d).sum := List.sum_le_sum h1
    _ = ENNReal.ofReal (Real.exp (a + e)) * (c.map fun k => ENNReal.ofReal (h k) * y k).sum
          + (c.map fun k => ENNReal.ofReal (g k)).sum * ENNReal.ofReal d := by
        rw [List.sum_map_add, List.sum_map_mul_left, List.sum_map_mul_right]
    _ = _ := by rw [sum_ofReal c g hg, hsum, ENNReal.ofReal_one, one_mul]

/-- What C30 says about single candidates. -/
theorem chosen_single {c : List ℕ} (hc : c.Nodup) (g : ℕ → ℝ) {k : ℕ} (hk : k ∈ c) :
    chosen c (c.map g) (fun j => j == k) = g k := by
  rw [chosen_map]
  have : c.filter (fun j => j == k) = [k] := by
    rw [List.filter_beq, List.count_eq_one_of_mem hc hk]
    rfl
  rw [this]
  simp

/-- The choice is a probability distribution on the candidates. -/
theorem privateL0_ok (O : Ops) (hO : O.Lawful) (params : BoundsParams) {parts : List K} (hparts : parts ≠ [])
    (hub : 1 ≤ params.upperBound) (rows : List (P × K × ℚ)) :
    ∃ g : ℕ → ℝ, (privateL0 Real.exp O params parts rows).2 = .ok ((privateL0 Real.exp O params parts rows).1.map g) ∧
      (∀ k, 0 ≤ g k) ∧ ((privateL0 Real.exp O params parts rows).1.map g).sum = 1 := by
  have hc0 : (privateL0 Real.exp O params parts rows).1 ≠ [] := by
    obtain ⟨x, xs, rfl⟩ := List.exists_cons_of_ne_nil hparts
    refine (C31_candidates_nonempty_iff _).mpr (le_min hub ?_)
    exact List.length_pos_of_mem ((hO.distinct (x :: xs)).mem x |>.mpr List.mem_cons_self)
  obtain ⟨q, hq, -, -, hq1⟩ := C29_probabilities (l0Scoring params (O.distinct parts).length (l0Of O parts rows)) params.eps _ hc0
  have h := probabilities_ok (l0Scoring params (O.distinct parts).length (l0Of O parts rows)) params.eps _ hc0
  rw [hq] at h
  have h' := Except.ok.inj h
  refine ⟨_, hq.trans (congrArg _ h'), fun k => div_nonneg (Real.exp_pos _).le (sum_pos_exp _ _ hc0).le, ?_⟩
  rw [← h', hq1]

/-! ### C66 -/

/-- **C66.**  The bound on partitions is chosen with `calculate_private_contribution_bounds` with `calculation_eps` for public
partitions `parts`, and then a pipeline of supported calls, which may depend on the chosen bound in any way, is run on the same
data with a naive accountant with total budget `(e, d)`.  The choice and everything released by the pipeline together are
`(calculation_eps + e, d)`-differentially private. -/
theorem C66_chosen_bound_and_pipeline_are_dp (O : Ops) (hO : O.Lawful) (params : BoundsParams) (heps : 0 ≤ params.eps)
    (parts : List K) (hparts : parts ≠ []) (hub : 1 ≤ params.upperBound) (key : R → K) (value : R → ℚ) (fmt : ℚ → String)
    (lib : Library) (hlib : lib.Contract) {e d : ℚ} {num ws s0} (h0 : Budget.init e d num ws = .ok s0)
    (cs : ℕ → List (Call R K)) (hs : ∀ k, 1 ≤ k → k ≤ params.upperBound → ∀ c ∈ cs k, c.Supported)
    (hd : ∀ k, 1 ≤ k → k ≤ params.upperBound → (∃ c ∈ cs k, c.NeedsDelta) → 0 < d)
    {bs : ℕ → List Built} {ops : ℕ → List Budget.Op}
    (hp : ∀ k, 1 ≤ k → k ≤ params.upperBound → planCalls fmt [] (cs k) = .ok (bs k, ops k) ∧
      (Budget.step (Budget.run s0 (ops k)).1 .compute).2 = .unit)
    {Ω : Type} [MeasurableSpace Ω] (μ : ℕ → Measure Ω) [∀ k, IsProbabilityMeasure (μ k)] (env : ℕ → Ω → ℕ → Env K)
    (henv : ∀ k ω j, (env k ω j).Lawful) (pid : R → P) (data : List R) (u : P)
    (hu : ∀ k, 1 ≤ k → k ≤ params.upperBound → ∀ c ∈ cs k, c.Promised pid data u) :
    let s := fun k => specOf (Budget.step (Budget.run s0 (ops k)).1 .compute).1
    let candidates := (privateL0 Real.exp O params parts (extract pid key value data)).1
    (privateL0 Real.exp O params parts (extract pid key value (removeId pid u data))).1 = candidates ∧
    ∃ (probs probs' : List ℝ) (L L' : ℕ → Ω → List (List (Candidate K))),
      (privateL0 Real.exp O params parts (extract pid key value data)).2 = .ok probs ∧
      (privateL0 Real.exp O params parts (extract pid key value (removeId pid u data))).2 = .ok probs' ∧
      (∀ k ∈ candidates, ∀ ω, evalCalls lib.sigma (s k) (env k ω) pid data 0 (cs k) (bs k) = .ok (L k ω) ∧
        evalCalls lib.sigma (s k) (env k ω) pid (removeId pid u data) 0 (cs k) (bs k) = .ok (L' k ω)) ∧
      withChosen candidates probs (fun _ => 1) = 1 ∧ withChosen candidates probs' (fun _ => 1) = 1 ∧
      ∀ (U : ℕ → Finset (ℕ × K)) (S : ℕ → Finset (ℕ × ℕ)) (A : ∀ k, Set ((U k → Bool × ℝ) × (U k × S k → ℝ))),
        (∀ k, MeasurableSet (A k)) →
        withChosen candidates probs (fun k => ∫⁻ ω, observedLaw lib (U k) (S k) (L k ω) (A k) ∂μ k)
          ≤ ENNReal.ofReal (Real.exp (params.eps + e)) *
              withChosen candidates probs' (fun k => ∫⁻ ω, observedLaw lib (U k) (S k) (L' k ω) (A k) ∂μ k) + ENNReal.ofReal d ∧
        withChosen candidates probs' (fun k => ∫⁻ ω, observedLaw lib (U k) (S k) (L' k ω) (A k) ∂μ k)
          ≤ ENNReal.ofReal (Real.exp (params.eps + e)) *
              withChosen candidates probs (fun k => ∫⁻ ω, observedLaw lib (U k) (S k) (L k ω) (A k) ∂μ k) + ENNReal.ofReal d := by
  intro s candidates
  rw [extract_removeId]
  obtain ⟨hcand, a, b, ha, hb, hab⟩ := C30_private_bound_is_dp O hO params heps parts hparts hub (extract pid key value data) u
  obtain ⟨g, g1, g2, g3⟩ := privateL0_ok O hO params hparts hub (extract pid key value data)
  obtain ⟨h, h1, h2, h3⟩ := privateL0_ok O hO params hparts hub ((extract pid key value data).filter fun r => r.1 ≠ u)
  rw [hcand] at h1 h3
  obtain rfl := Except.ok.inj (g1.symm.trans ha)
  obtain rfl := Except.ok.inj (h1.symm.trans hb)
  have hnd : candidates.Nodup := (C31_possible_bounds _).1.imp fun h => ne_of_lt h
  have hrange : ∀ k ∈ candidates, 1 ≤ k ∧ k ≤ params.upperBound := fun k hk =>
    ⟨(C30_range O _ params parts _ k hk).1, (C30_range O _ params parts _ k hk).2.1⟩
  have hpipe : ∀ k, ∃ L L' : Ω → List (List (Candidate K)), k ∈ candidates →
      (∀ ω, evalCalls lib.sigma (s k) (env k ω) pid data 0 (cs k) (bs k) = .ok (L ω) ∧
        evalCalls lib.sigma (s k) (env k ω) pid (removeId pid u data) 0 (cs k) (bs k) = .ok (L' ω)) ∧
      ∀ (U : Finset (ℕ × K)) (S : Finset (ℕ × ℕ)), ∀ A, MeasurableSet A →
          ∫⁻ ω, observedLaw lib U S (L ω) A ∂μ k
            ≤ ENNReal.ofReal (Real.exp e) * ∫⁻ ω, observedLaw lib U S (L' ω) A ∂μ k + ENNReal.ofReal d ∧
          ∫⁻ ω, observedLaw lib U S (L' ω) A ∂μ k
            ≤ ENNReal.ofReal (Real.exp e) * ∫⁻ ω, observedLaw lib U S (L ω) A ∂μ k + ENNReal.ofReal d := by
    intro k
    by_cases hk : k ∈ candidates
    · obtain ⟨k1, k2⟩ := hrange k hk
      obtain ⟨L, L', q1, q2⟩ := C62_pipeline_is_differentially_private fmt lib hlib h0 (cs k) (hs k k1 k2) (hd k k1 k2) (hp k k1 k2).1
        (hp k k1 k2).2 (μ k) (env k) (henv k) pid data u (hu k k1 k2)
      exact ⟨L, L', fun _ => ⟨q1, fun U S A hA => (q2 U S).2 A hA⟩⟩
    · exact ⟨fun _ => [], fun _ => [], fun h => absurd h hk⟩
  choose L L' hL using hpipe
  refine ⟨hcand, _, _, L, L', ha, hb, fun k hk => (hL k hk).1, ?_, ?_, fun U S A hA => ⟨?_, ?_⟩⟩
  · rw [withChosen_map]
    simp only [mul_one]
    rw [sum_ofReal _ _ fun k _ => g2 k, g3, ENNReal.ofReal_one]
  · rw [withChosen_map]
    simp only [mul_one]
    rw [sum_ofReal _ _ fun k _ => h2 k, h3, ENNReal.ofReal_one]
  · refine compose_choice _ g h (fun k _ => g2 k) g3 _ _ _ (fun k hk => ?_) _ _ fun k hk => ((hL k hk).2 (U k) (S k) (A k) (hA k)).1
    have := (hab fun j => j == k).1
    rwa [chosen_single hnd g hk, chosen_single hnd h hk] at this
  · refine compose_choice _ h g (fun k _ => h2 k) h3 _ _ _ (fun k hk => ?_) _ _ fun k hk => ((hL k hk).2 (U k) (S k) (A k) (hA k)).2
    have := (hab fun j => j == k).2
    rwa [chosen_single hnd g hk, chosen_single hnd h hk] at this

/-- **C66** (gap).  The accountant does not know of `calculation_eps`: for every total epsilon `e` of the accountant there is a
choice of a bound that alone is not `e`-differentially private (two public partitions, three users, Laplace noise). -/
theorem C66_choice_is_not_counted (e : ℝ) (he : 0 ≤ e) :
    ∃ (params : BoundsParams) (parts : List ℕ) (rows : List (ℕ × ℕ × ℚ)) (u : ℕ) (probs probs' : List ℝ) (event : ℕ → Bool),
      0 ≤ params.eps ∧ 1 ≤ params.upperBound ∧ (∀ k, params.std k = √2 * k / 4) ∧
      (privateL0 Real.exp localOps params parts rows).2 = .ok probs ∧
      (privateL0 Real.exp localOps params parts (rows.filter fun r => r.1 ≠ u)).2 = .ok probs' ∧
      Real.exp e * chosen (privateL0 Real.exp localOps params parts rows).1 probs event <
        chosen (privateL0 Real.exp localOps params parts rows).1 probs' event := by
  set rows : List (ℕ × ℕ × ℚ) := [(1, 10, 0), (1, 11, 0), (2, 10, 0), (3, 11, 0)] with hrows
  set rows' := rows.filter fun r => r.1 ≠ 1 with hrows'
  let params : BoundsParams := ⟨2, 16 * (e + 1), fun k => √2 * k / 4⟩
  have b1 : (binBounds 1).1 = 1 := by simp [binBounds, growBound]
  have b2 : (binBounds 2).1 = 2 := by simp [binBounds, growBound]
  have hn : (localOps.distinct [10, 11] : List ℕ).length = 2 := by decide
  have hb : bestBound params 2 = 2 := rfl
  have hc : possibleBounds 2 = [1, 2] := by
    simp [possibleBounds, boundsLoop]
  have d1 : ∀ k : ℕ, impactDropped 2 (l0Of localOps [10, 11] rows) k = max (2 - (k : ℚ)) 0 + 2 * max (1 - (k : ℚ)) 0 := by
    intro k
    rw [l0Of, impactDropped_eq _ _ _ _ (C33_dataset_histograms localOps localOps_lawful _).l0]
    have h1 : (allIds (rows.filter fun r => r.2.1 ∈ [10, 11])).map (partitionsOfId (rows.filter fun r => r.2.1 ∈ [10, 11])) = [2, 1, 1] := by
      decide +kernel
    rw [h1]
    simp only [List.map_cons, List.map_nil, b1, b2]
    norm_num
    ring
  have d2 : ∀ k : ℕ, impactDropped 2 (l0Of localOps [10, 11] rows') k = 2 * max (1 - (k : ℚ)) 0 := by
    intro k
    rw [l0Of, impactDropped_eq _ _ _ _ (C33_dataset_histograms localOps localOps_lawful _).l0]
    have h1 : (allIds (rows'.filter fun r => r.2.1 ∈ [10, 11])).map (partitionsOfId (rows'.filter fun r => r.2.1 ∈ [10, 11])) = [1, 1] := by
      decide +kernel
    rw [h1]
    simp only [List.map_cons, List.map_nil, b1]
    norm_num
    ring
  have s1 : ∀ k : ℕ, (l0Scoring params 2 (l0Of localOps [10, 11] rows)).score k
      = -(√2 * k / 4 + (1 / 2) * (((max (2 - (k : ℚ)) 0 + 2 * max (1 - (k : ℚ)) 0 : ℚ)) : ℝ)) := by
    intro k
    show -((1 / 2) * (((2 : ℕ) : ℝ) * (√2 * k / 4)) + (1 - 1 / 2) * ((impactDropped 2 _ k : ℚ) : ℝ)) = _
    rw [d1]; push_cast; ring
  have s2 : ∀ k : ℕ, (l0Scoring params 2 (l0Of localOps [10, 11] rows')).score k
      = -(√2 * k / 4 + (1 / 2) * (((2 * max (1 - (k : ℚ)) 0 : ℚ)) : ℝ)) := by
    intro k
    show -((1 / 2) * (((2 : ℕ) : ℝ) * (√2 * k / 4)) + (1 - 1 / 2) * ((impactDropped 2 _ k : ℚ) : ℝ)) = _
    rw [d2]; push_cast; ring
  have hcand : (privateL0 Real.exp localOps params [10, 11] rows).1 = [1, 2] := by
    show possibleBounds (bestBound params (localOps.distinct [10, 11] : List ℕ).length) = _
    rw [hn, hb, hc]
  have p1 : (privateL0 Real.exp localOps params [10, 11] rows).2
      = probabilities Real.exp (l0Scoring params 2 (l0Of localOps [10, 11] rows)) (16 * (e + 1)) [1, 2] := by
    show probabilities _ (l0Scoring params (localOps.distinct [10, 11] : List ℕ).length _) _
      (possibleBounds (bestBound params (localOps.distinct [10, 11] : List ℕ).length)) = _
    rw [hn, hb, hc]
  have p2 : (privateL0 Real.exp localOps params [10, 11] rows').2
      = probabilities Real.exp (l0Scoring params 2 (l0Of localOps [10, 11] rows')) (16 * (e + 1)) [1, 2] := by
    show probabilities _ (l0Scoring params (localOps.distinct [10, 11] : List ℕ).length _) _
      (possibleBounds (bestBound params (localOps.distinct [10, 11] : List ℕ).length)) = _
    rw [hn, hb, hc]
  rw [probabilities_ok _ _ _ (by simp)] at p1 p2
  refine ⟨params, [10, 11], rows, 1, _, _, fun k => k == 1, by show 0 ≤ 16 * (e + 1); linarith, by show 1 ≤ 2; norm_num,
    fun k => rfl, p1, p2, ?_⟩
  rw [hcand, chosen_single (by decide) _ (by decide), chosen_single (by decide) _ (by decide)]
  have hden : ∀ bins, (l0Scoring params 2 bins).denominator = 2 := fun bins => rfl
  simp only [hden, s1, s2, List.map_cons, List.map_nil, List.sum_cons, List.sum_nil, add_zero]
  norm_num
  have hr : √2 ≤ 3 / 2 := by
    rw [Real.sqrt_le_left (by norm_num)]
    norm_num
  have hr0 : 0 ≤ √2 := Real.sqrt_nonneg 2
  set E1 := Real.exp ((-(1 / 2) + -(√2 / 4)) * (16 * (e + 1)) / 2) with hE1
  set E2 := Real.exp (-(√2 * 2 / 4 * (16 * (e + 1))) / 2) with hE2
  set F1 := Real.exp (-(√2 / 4 * (16 * (e + 1))) / 2) with hF1
  have e1 : 0 < E1 := Real.exp_pos _
  have e2 : 0 < E2 := Real.exp_pos _
  have f1 : 0 < F1 := Real.exp_pos _
  have hF : E2 ≤ F1 := Real.exp_le_exp.mpr (by nlinarith)
  have hE : Real.exp e * E1 ≤ Real.exp (-1) * E2 := by
    rw [hE1, hE2, ← Real.exp_add, ← Real.exp_add]
    apply Real.exp_le_exp.mpr
    nlinarith
  have h1 : Real.exp (-1) < 1 / 2 := by
    rw [Real.exp_neg, one_div]
    exact inv_strictAnti₀ (by norm_num) (by have := Real.add_one_lt_exp (show (1 : ℝ) ≠ 0 by norm_num); linarith)
  have lhs : Real.exp e * (E1 / (E1 + E2)) < 1 / 2 := by
    rw [← mul_div_assoc, div_lt_iff₀ (by linarith)]
    have : Real.exp (-1) * E2 < 1 / 2 * E2 := mul_lt_mul_of_pos_right h1 e2
    linarith
  have rhs : 1 / 2 ≤ F1 / (F1 + E2) := by
    rw [le_div_iff₀ (by linarith)]
    linarith
  exact lhs.trans_le rhs

/-- COUNT for two public days with a given bound on days. -/
def exampleCount (k : ℕ) : Params where
  metrics := [.count]
  maxPartitions := some k
  maxPerPartition := some 1

/-- The hypotheses of C66: the bound is chosen from 1 to 2 for two days and then used by COUNT. -/
example (fmt : ℚ → String) (data : List (ℕ × ℕ × ℚ)) (u : ℕ) :
    let params : BoundsParams := ⟨2, 1, fun k => √2 * k⟩
    let cs : ℕ → List (Call (ℕ × ℕ × ℚ) ℕ) := fun k =>
      [.aggregate (exampleCount k) (some [10, 11]) (fun r => r.2.1) (fun r => r.2.2)]
    ∃ s0, ∃ bs : ℕ → List Built, ∃ ops : ℕ → List Budget.Op, Budget.init 1 0 none none = .ok s0 ∧
      ∀ k, 1 ≤ k → k ≤ params.upperBound → (∀ c ∈ cs k, c.Supported) ∧ ((∃ c ∈ cs k, c.NeedsDelta) → (0 : ℚ) < 0) ∧
        planCalls fmt [] (cs k) = .ok (bs k, ops k) ∧ (Budget.step (Budget.run s0 (ops k)).1 .compute).2 = .unit ∧
        ∀ c ∈ cs k, c.Promised Prod.fst data u := by
  intro params cs
  obtain ⟨s0, h0⟩ : ∃ s0, Budget.init 1 0 none none = .ok s0 := by norm_num [Budget.init]
  have hs : ∀ k, 1 ≤ k → ∀ c ∈ cs k, c.Supported := by
    intro k hk c hc
    simp only [cs, List.mem_singleton] at hc
    subst hc
    show SupportedAggregate _ _
    refine ⟨by simp [Params.BoundsValid, exampleCount]; omega, by simp [exampleCount], by simp [exampleCount], by simp [exampleCount],
      by simp [exampleCount], by simp [exampleCount], by simp [exampleCount], by simp [exampleCount], by simp⟩
  have hd : ∀ k, (∃ c ∈ cs k, c.NeedsDelta) → (0 : ℚ) < 0 := by
    rintro k ⟨c, hc, h⟩
    simp only [cs, List.mem_singleton] at hc
    subst hc
    simp [Call.NeedsDelta, exampleCount] at h
  have run : ∀ k, ∃ bs ops, 1 ≤ k → planCalls fmt [] (cs k) = .ok (bs, ops) ∧ (Budget.step (Budget.run s0 ops).1 .compute).2 = .unit := by
    intro k
    by_cases hk : 1 ≤ k
    · obtain ⟨bs, ops, hp, -, hc⟩ := C62_supported_pipeline_runs fmt (cs k) (hs k hk) h0 (hd k) ⟨by simp, by simp⟩
      exact ⟨bs, ops, fun _ => ⟨hp, hc⟩⟩
    · exact ⟨[], [], fun h => absurd h hk⟩
  choose bs ops hrun using run
  refine ⟨s0, bs, ops, h0, fun k k1 _ => ⟨hs k k1, hd k, (hrun k k1).1, (hrun k k1).2, ?_⟩⟩
  intro c hc
  simp only [cs, List.mem_singleton] at hc
  subst hc
  exact ⟨⟨fun h => by simp [exampleCount] at h, fun h => by simp [exampleCount] at h⟩, fun h => by simp [exampleCount] at h⟩

end PDP.EndToEnd
