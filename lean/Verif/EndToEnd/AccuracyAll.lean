import Verif.EndToEnd.Accuracy

/-!
# All partitions of a release at once (C91)
-/

set_option linter.unusedSectionVars false

namespace PDP.EndToEnd

open PDP PDP.Engine MeasureTheory
open PDP.Engine.Mechanism (Additive laplaceDensity)
open PDP.Engine.AddNoise (specOf)
open PDP.Budget (State Op MechType)

variable {R P K : Type} [DecidableEq P] [DecidableEq K]

/-! ### Specification -/

/-- The partitions of the first call. -/
def firstCall (ps : List K) : Finset (ℕ × K) := ps.toFinset.image fun k => (0, k)

/-- The first number of the first budget. -/
def firstNumber : ({((0 : ℕ), (0 : ℕ))} : Finset (ℕ × ℕ)) := ⟨(0, 0), by simp⟩

/-- Every partition is released, with a number whose distance to the exact one is less than `t`. -/
def allWithin (ps : List K) (exact : K → ℝ) (t : ℝ) :
    Set ((firstCall ps → Bool × ℝ) × (firstCall ps × ({((0 : ℕ), (0 : ℕ))} : Finset (ℕ × ℕ)) → ℝ)) :=
  {x | ∀ u, (x.1 u).1 = true ∧ |x.2 (u, firstNumber) - exact u.1.2| < t}

/-! ### Lemmas -/

theorem within_measure {law : Measure ℝ} {v b t : ℝ} (h : LaplaceAround law v b) (ht : 0 ≤ t) :
    law {y | |y - v| < t} = ENNReal.ofReal (1 - Real.exp (-t / b)) := by
  have := h.prob
  have hm : MeasurableSet {y : ℝ | t ≤ |y - v|} := measurableSet_le measurable_const (by fun_prop)
  have h1 : {y : ℝ | |y - v| < t} = {y | t ≤ |y - v|}ᶜ := by ext y; simp
  rw [h1, prob_compl_eq_one_sub hm, h.error t ht, ENNReal.ofReal_sub _ (Real.exp_nonneg _), ENNReal.ofReal_one]

theorem card_firstCall (ps : List K) : Fintype.card (firstCall ps) = ps.dedup.length := by
  rw [Fintype.card_coe, firstCall, Finset.card_image_of_injective _ (fun a b h => (Prod.mk.inj h).2)]
  exact (List.toFinset_card_of_nodup (List.nodup_dedup ps) ▸ by congr 1; ext; simp)

theorem all_within {lib : Library} {ps : List K} {l : List (Candidate K)} {v : K → ℝ} {b t : ℝ} (hb : 0 < b) (ht : 0 ≤ t)
    (hk : ∀ k, k ∈ l.map Candidate.key ↔ k ∈ ps)
    (hg : ∀ c ∈ l, c.gate = .always ∧ c.numbers.map (fun n => (n.spec, n.comp)) = [(0, 0)])
    (hn : ∀ c ∈ l, ∃ law, c.numbers.map Noisy.law = [law] ∧ LaplaceAround law (v c.key) b) :
    observedLaw lib (firstCall ps) {(0, 0)} [l] (allWithin ps v t) = ENNReal.ofReal ((1 - Real.exp (-t / b)) ^ ps.dedup.length) := by
  have hu : ∀ u : firstCall ps, ∃ c ∈ l, u.1.1 = 0 ∧ l.find? (fun c => c.key = u.1.2) = some c ∧ c.key = u.1.2 := by
    rintro ⟨⟨j, k⟩, hu⟩
    simp only [firstCall, Finset.mem_image, List.mem_toFinset, Prod.mk.injEq] at hu
    obtain ⟨k', h1, rfl, rfl⟩ := hu
    obtain ⟨c, hc, hck⟩ := List.mem_map.mp ((hk k').mpr h1)
    have hsome : (l.find? fun c => c.key = k').isSome := by
      rw [List.find?_isSome]; exact ⟨c, hc, by simpa using hck⟩
    obtain ⟨c', hc'⟩ := Option.isSome_iff_exists.mp hsome
    exact ⟨c', List.mem_of_find?_eq_some hc', rfl, hc', by simpa using List.find?_some hc'⟩
  have hdec : ∀ u : firstCall ps, decisionLaw lib (([l] : List (List (Candidate K))).getD u.1.1 []) u.1.2 = Measure.dirac (true, 0) := by
    intro u
    obtain ⟨c, hc, h1, h2, -⟩ := hu u
    simp only [h1, List.getD_cons_zero, decisionLaw, h2, (hg c hc).1, Gate.law]
  have hnum : ∀ i : firstCall ps × ({((0 : ℕ), (0 : ℕ))} : Finset (ℕ × ℕ)),
      LaplaceAround (numberLaw (([l] : List (List (Candidate K))).getD i.1.1.1 []) i.1.1.2 i.2.1) (v i.1.1.2) b := by
    rintro ⟨u, ⟨s, hs⟩⟩
    obtain rfl : s = (0, 0) := by simpa using hs
    obtain ⟨c, hc, h1, h2, h3⟩ := hu u
    obtain ⟨law, h4, h5⟩ := hn c hc
    have h6 := (hg c hc).2
    rcases h7 : c.numbers with _ | ⟨n, _ | ⟨n', ns⟩⟩
    · rw [h7] at h6; simp at h6
    · rw [h7] at h4 h6
      simp only [List.map_cons, List.map_nil, List.cons.injEq, and_true] at h4 h6
      simp only [h1, List.getD_cons_zero, numberLaw, h2, h7]
      rw [List.find?_cons_of_pos (by simpa using h6)]
      simp only
      rw [h4, ← h3]
      exact h5
    · rw [h7] at h6; simp at h6
  have hp : ∀ i : firstCall ps × ({((0 : ℕ), (0 : ℕ))} : Finset (ℕ × ℕ)),
      IsProbabilityMeasure (numberLaw (([l] : List (List (Candidate K))).getD i.1.1.1 []) i.1.1.2 i.2.1) := fun i => (hnum i).prob
  rw [observedLaw_always lib _ _ _ hdec hp]
  have hset : MeasurableSet (allWithin ps v t) := by
    unfold allWithin
    rw [show {x : (firstCall ps → Bool × ℝ) × (firstCall ps × ({((0 : ℕ), (0 : ℕ))} : Finset (ℕ × ℕ)) → ℝ) |
      ∀ u, (x.1 u).1 = true ∧ |x.2 (u, firstNumber) - v u.1.2| < t}
      = ⋂ u, ({x | (x.1 u).1 = true} ∩ {x | |x.2 (u, firstNumber) - v u.1.2| < t}) by ext x; simp]
    refine MeasurableSet.iInter fun u => MeasurableSet.inter ?_ ?_
    · exact (measurable_fst.comp ((measurable_pi_apply u).comp measurable_fst)) (measurableSet_singleton true)
    · exact measurableSet_lt (by fun_prop) measurable_const
  rw [Measure.map_apply (by fun_prop) hset]
  have hpre : (fun f : firstCall ps × ({((0 : ℕ), (0 : ℕ))} : Finset (ℕ × ℕ)) → ℝ =>
      ((fun _ => ((true, 0) : Bool × ℝ) : firstCall ps → Bool × ℝ), f)) ⁻¹' allWithin ps v t
      = Set.univ.pi fun i => {y | |y - v i.1.1.2| < t} := by
    ext f
    simp only [allWithin, Set.mem_preimage, Set.mem_ofPred_eq, true_and, Set.mem_univ_pi]
    constructor
    · rintro h ⟨u, ⟨s, hs⟩⟩
      obtain rfl : s = (0, 0) := by simpa using hs
      exact h u
    · intro h u
      exact h (u, firstNumber)
  rw [hpre, Measure.pi_pi, Finset.prod_congr rfl fun i _ => within_measure (hnum i) ht, Finset.prod_const, Finset.card_univ,
    Fintype.card_prod, card_firstCall, Fintype.card_coe, Finset.card_singleton, mul_one, ENNReal.ofReal_pow]
  rw [sub_nonneg, Real.exp_le_one_iff, neg_div]
  exact neg_nonpos.mpr (by positivity)

/-- With probability at least `1 - β` all errors are less than `b * log (n / β)`. -/
theorem likely {n : ℕ} {b β : ℝ} (hb : 0 < b) (hβ : 0 < β) (hβ1 : β ≤ 1) (hn : 1 ≤ n) :
    0 ≤ b * Real.log (n / β) ∧ 1 - β ≤ (1 - Real.exp (-(b * Real.log (n / β)) / b)) ^ n := by
  have hn' : (1 : ℝ) ≤ n := by exact_mod_cast hn
  have h1 : 1 ≤ n / β := by rw [le_div_iff₀ hβ]; linarith
  refine ⟨mul_nonneg hb.le (Real.log_nonneg h1), ?_⟩
  have h2 : Real.exp (-(b * Real.log (n / β)) / b) = β / n := by
    rw [neg_div, mul_div_cancel_left₀ _ hb.ne', Real.exp_neg, Real.exp_log (by linarith), inv_div]
  rw [h2]
  have h3 : β / n ≤ 1 := by rw [div_le_one (by linarith)]; linarith
  have h4 := one_add_mul_le_pow (a := -(β / n)) (by linarith) n
  have h5 : (n : ℝ) * -(β / n) = -β := by field_simp
  rw [h5] at h4
  rw [sub_eq_add_neg, sub_eq_add_neg]
  exact h4

theorem bounds_pos {p : Params} (hp : p.BoundsValid) {l0 linf : ℕ} (hl0 : p.maxPartitions = some l0)
    (hlinf : p.maxPerPartition = some linf) : (0 : ℝ) < l0 ∧ (0 : ℝ) < linf := by
  rcases hp with ⟨m, -, -, q, -⟩ | ⟨a, b, ha, hb, -, q1, q2⟩
  · rw [hl0] at q; cases q
  · rw [hl0] at q1; rw [hlinf] at q2
    cases q1; cases q2
    exact ⟨by exact_mod_cast ha, by exact_mod_cast hb⟩

/-! ### Theorems -/

/-- **C91** (all partitions, COUNT).  All public partitions are released, and all counts are at the same time wrong by less than `t`
with probability `(1 - exp (-t * e / (l0 * linf))) ^ n`, where `n` is the number of public partitions.  So with probability at least
`1 - β` no count is wrong by `l0 * linf / e * log (n / β)` or more. -/
theorem C91_all_counts_at_once (fmt : ℚ → String) (lib : Library) {p : Params} {ps : List K} {key : R → K} {value : R → ℚ}
    (hs : SupportedAggregate p (some ps)) (hm : p.metrics = [.count]) (hk : p.noiseKind = .laplace) {l0 linf : ℕ}
    (hl0 : p.maxPartitions = some l0) (hlinf : p.maxPerPartition = some linf) (hmc : p.maxContributions = none)
    {e d : ℚ} {s0} (h0 : Budget.init e d none none = .ok s0) (env : Env K) (hB : env.backend.Lawful)
    (hcomb : ∀ {A : Type} (merge : A → A → A), LawfulCombine merge (env.combine merge)) (pid : R → P) (data : List R)
    (hw : (Call.aggregate p (some ps) key value).Within pid data) :
    ∃ ops bs l, planCalls fmt [] [Call.aggregate p (some ps) key value] = .ok (bs, ops) ∧
      evalCalls lib.sigma (specOf (Budget.step (Budget.run s0 ops).1 .compute).1) (fun _ => env) pid data 0
        [Call.aggregate p (some ps) key value] bs = .ok [l] ∧
      (∀ t : ℝ, 0 ≤ t → observedLaw lib (firstCall ps) {(0, 0)} [l]
          (allWithin ps (fun k => ((data.filter fun r => key r = k).length : ℝ)) t)
        = ENNReal.ofReal ((1 - Real.exp (-t * e / (l0 * linf))) ^ ps.dedup.length)) ∧
      ∀ β : ℝ, 0 < β → β ≤ 1 → ps ≠ [] → ENNReal.ofReal (1 - β) ≤ observedLaw lib (firstCall ps) {(0, 0)} [l]
          (allWithin ps (fun k => ((data.filter fun r => key r = k).length : ℝ))
            (l0 * linf / e * Real.log (ps.dedup.length / β))) := by
  obtain ⟨ops, bs, l, h1, h2, h3, h4, h5⟩ := C91_count_is_accurate fmt lib.sigma hs hm hk hl0 hlinf hmc h0 env hB hcomb pid data hw
  have he : (0 : ℝ) < e := by exact_mod_cast (Budget.init_facts h0).1
  obtain ⟨hl0', hlinf'⟩ := bounds_pos hs.bounds hl0 hlinf
  have hb : (0 : ℝ) < l0 * linf / e := by positivity
  have key1 : ∀ t : ℝ, 0 ≤ t → _ := fun t ht => all_within (lib := lib) (v := fun k => ((data.filter fun r => key r = k).length : ℝ)) hb ht h3 h4 h5
  refine ⟨ops, bs, l, h1, h2, fun t ht => ?_, fun β hβ hβ1 hps => ?_⟩
  · rw [key1 t ht, div_div_eq_mul_div]
  · have hn : 1 ≤ ps.dedup.length := List.length_pos_iff.mpr (by simpa using hps)
    obtain ⟨q1, q2⟩ := likely hb hβ hβ1 hn
    rw [key1 _ q1]
    exact ENNReal.ofReal_le_ofReal q2

/-- **C91** (all partitions, PRIVACY_ID_COUNT). -/
theorem C91_all_privacy_id_counts_at_once (fmt : ℚ → String) (lib : Library) {p : Params} {ps : List K} {key : R → K} {value : R → ℚ}
    (hs : SupportedAggregate p (some ps)) (hm : p.metrics = [.privacyIdCount]) (hk : p.noiseKind = .laplace) {l0 linf : ℕ}
    (hl0 : p.maxPartitions = some l0) (hlinf : p.maxPerPartition = some linf) (hmc : p.maxContributions = none)
    (ht : p.postThresholding = false)
    {e d : ℚ} {s0} (h0 : Budget.init e d none none = .ok s0) (env : Env K) (hB : env.backend.Lawful)
    (hcomb : ∀ {A : Type} (merge : A → A → A), LawfulCombine merge (env.combine merge)) (pid : R → P) (data : List R)
    (hw : (Call.aggregate p (some ps) key value).Within pid data) :
    ∃ ops bs l, planCalls fmt [] [Call.aggregate p (some ps) key value] = .ok (bs, ops) ∧
      evalCalls lib.sigma (specOf (Budget.step (Budget.run s0 ops).1 .compute).1) (fun _ => env) pid data 0
        [Call.aggregate p (some ps) key value] bs = .ok [l] ∧
      (∀ t : ℝ, 0 ≤ t → observedLaw lib (firstCall ps) {(0, 0)} [l]
          (allWithin ps (fun k => (((data.filter fun r => key r = k).map pid).dedup.length : ℝ)) t)
        = ENNReal.ofReal ((1 - Real.exp (-t * e / l0)) ^ ps.dedup.length)) ∧
      ∀ β : ℝ, 0 < β → β ≤ 1 → ps ≠ [] → ENNReal.ofReal (1 - β) ≤ observedLaw lib (firstCall ps) {(0, 0)} [l]
          (allWithin ps (fun k => (((data.filter fun r => key r = k).map pid).dedup.length : ℝ))
            (l0 / e * Real.log (ps.dedup.length / β))) := by
  obtain ⟨ops, bs, l, h1, h2, h3, h4, h5⟩ := C91_privacy_id_count_is_accurate fmt lib.sigma hs hm hk hl0 hlinf hmc ht h0 env hB hcomb pid data hw
  have he : (0 : ℝ) < e := by exact_mod_cast (Budget.init_facts h0).1
  obtain ⟨hl0', hlinf'⟩ := bounds_pos hs.bounds hl0 hlinf
  have hb : (0 : ℝ) < l0 / e := by positivity
  have key1 : ∀ t : ℝ, 0 ≤ t → _ := fun t ht => all_within (lib := lib) (v := fun k => (((data.filter fun r => key r = k).map pid).dedup.length : ℝ)) hb ht h3 h4 h5
  refine ⟨ops, bs, l, h1, h2, fun t ht => ?_, fun β hβ hβ1 hps => ?_⟩
  · rw [key1 t ht, div_div_eq_mul_div]
  · have hn : 1 ≤ ps.dedup.length := List.length_pos_iff.mpr (by simpa using hps)
    obtain ⟨q1, q2⟩ := likely hb hβ hβ1 hn
    rw [key1 _ q1]
    exact ENNReal.ofReal_le_ofReal q2

/-- **C91** (all partitions, SUM). -/
theorem C91_all_sums_at_once (fmt : ℚ → String) (lib : Library) {p : Params} {ps : List K} {key : R → K} {value : R → ℚ}
    (hs : SupportedAggregate p (some ps)) (hm : p.metrics = [.sum]) (hk : p.noiseKind = .laplace) {l0 linf : ℕ}
    (hl0 : p.maxPartitions = some l0) (hlinf : p.maxPerPartition = some linf) (hmc : p.maxContributions = none)
    {lo hi : ℚ} (hlo : p.minValue = some lo) (hhi : p.maxValue = some hi)
    {e d : ℚ} {s0} (h0 : Budget.init e d none none = .ok s0) (env : Env K) (hB : env.backend.Lawful)
    (hcomb : ∀ {A : Type} (merge : A → A → A), LawfulCombine merge (env.combine merge)) (pid : R → P) (data : List R)
    (hw : (Call.aggregate p (some ps) key value).Within pid data) :
    ∃ ops bs l, planCalls fmt [] [Call.aggregate p (some ps) key value] = .ok (bs, ops) ∧
      evalCalls lib.sigma (specOf (Budget.step (Budget.run s0 ops).1 .compute).1) (fun _ => env) pid data 0
        [Call.aggregate p (some ps) key value] bs = .ok [l] ∧
      (∀ t : ℝ, 0 ≤ t → observedLaw lib (firstCall ps) {(0, 0)} [l]
          (allWithin ps (fun k => ((((data.filter fun r => key r = k).map fun r => min (max (value r) lo) hi).sum : ℚ) : ℝ)) t)
        = ENNReal.ofReal ((1 - Real.exp (-t * e / (l0 * linf * (max |lo| |hi| : ℚ)))) ^ ps.dedup.length)) ∧
      ∀ β : ℝ, 0 < β → β ≤ 1 → ps ≠ [] → ENNReal.ofReal (1 - β) ≤ observedLaw lib (firstCall ps) {(0, 0)} [l]
          (allWithin ps (fun k => ((((data.filter fun r => key r = k).map fun r => min (max (value r) lo) hi).sum : ℚ) : ℝ))
            (l0 * linf * (max |lo| |hi| : ℚ) / e * Real.log (ps.dedup.length / β))) := by
  obtain ⟨ops, bs, l, h1, h2, h3, h4, h5⟩ := C91_sum_is_accurate fmt lib.sigma hs hm hk hl0 hlinf hmc hlo hhi h0 env hB hcomb pid data hw
  have he : (0 : ℝ) < e := by exact_mod_cast (Budget.init_facts h0).1
  obtain ⟨hl0', hlinf'⟩ := bounds_pos hs.bounds hl0 hlinf
  have hmax : (0 : ℝ) < (max |lo| |hi| : ℚ) := by
    rcases hs.sum (by simp [hm]) (by simp [hm]) (by simp [hm]) with ⟨a, b, q1, q2, -, q4, -⟩ | ⟨_, _, -, -, -, -, q, -⟩
    · rw [hlo] at q1; rw [hhi] at q2
      cases q1; cases q2
      exact_mod_cast max_abs_pos q4
    · rw [hlo] at q; cases q
  have hb : (0 : ℝ) < l0 * linf * (max |lo| |hi| : ℚ) / e := by positivity
  have key1 : ∀ t : ℝ, 0 ≤ t → _ := fun t ht => all_within (lib := lib) (v := fun k => ((((data.filter fun r => key r = k).map fun r => min (max (value r) lo) hi).sum : ℚ) : ℝ)) hb ht h3 h4 h5
  refine ⟨ops, bs, l, h1, h2, fun t ht => ?_, fun β hβ hβ1 hps => ?_⟩
  · rw [key1 t ht, div_div_eq_mul_div]
  · have hn : 1 ≤ ps.dedup.length := List.length_pos_iff.mpr (by simpa using hps)
    obtain ⟨q1, q2⟩ := likely hb hβ hβ1 hn
    rw [key1 _ q1]
    exact ENNReal.ofReal_le_ofReal q2

end PDP.EndToEnd
