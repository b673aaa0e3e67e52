import Verif.EndToEnd.SparkGap
import Verif.EndToEnd.Probability
import Mathlib.Probability.Distributions.Uniform

/-! # Spark: placements that are private, and fair random choices exist (C77) -/

set_option linter.unusedVariables false

namespace PDP.EndToEnd

open PDP PDP.Engine PDP.Backend MeasureTheory
open PDP.Engine.AddNoise (specOf)

variable {R P K : Type} [DecidableEq P] [DecidableEq K]

/-- **C77** (private placements).  On Spark with one row in each block, or all rows in one block, supported pipelines are
`e`-differentially private for every distribution of the random choices. -/
theorem C77_spark_single_rows_private (fmt : ℚ → String) (sigma : ℝ → ℝ → ℝ → ℝ) {e d : ℚ} {num ws s0}
    (h0 : Budget.init e d num ws = .ok s0) (qs : List (Query R K)) (hs : ∀ q ∈ qs, Supported q.params) {ps ops}
    (hp : plan fmt [] qs = .ok (ps, ops)) (hcomp : (Budget.step (Budget.run s0 ops).1 .compute).2 = .unit) {c : ℕ} (hc : c ≤ 1)
    {Ω : Type} [MeasurableSpace Ω] (μ : Measure Ω) (rng : Ω → SparkRng) (other : Ω → Rng)
    (pid : R → P) (data : List R) (u : P) (hu : ∀ q ∈ qs, CallerKeepsBounds q.params u (q.rows pid data))
    (hf : ∀ q ∈ qs, q.params.publicFiltered = true → ∀ r ∈ data, q.key r ∈ q.partitions) :
    let s := specOf (Budget.step (Budget.run s0 ops).1 .compute).1
    let S := (released sigma qs ps).toFinset
    ∃ L L' : Ω → List (Noisy K),
      (∀ ω, evalAll sigma s (fun _ => sparkEnv (rng ω) (other ω) c) pid data 0 qs ps = .ok (L ω) ∧
        evalAll sigma s (fun _ => sparkEnv (rng ω) (other ω) c) pid (removeId pid u data) 0 qs ps = .ok (L' ω) ∧
        IsProbabilityMeasure (law S (L ω)) ∧ IsProbabilityMeasure (law S (L' ω))) ∧
      ∀ A : Set (S → ℝ),
        ∫⁻ ω, law S (L ω) A ∂μ ≤ ENNReal.ofReal (Real.exp e) * ∫⁻ ω, law S (L' ω) A ∂μ ∧
        ∫⁻ ω, law S (L' ω) A ∂μ ≤ ENNReal.ofReal (Real.exp e) * ∫⁻ ω, law S (L ω) A ∂μ :=
  C60_pipeline_is_differentially_private fmt sigma h0 qs hs hp hcomp μ (fun ω _ => sparkEnv (rng ω) (other ω) c)
    (fun ω _ => ⟨C77_spark_backend_lawful _ _ c, C77_spark_key_local _ _ hc, fun merge => C77_spark_combine_lawful c merge⟩)
    pid data u hu hf

/-! ### Fair random choices -/

/-- One coin for every user and step. -/
abbrev Coins := (ℕ × Unit) × List Bool → Bool

/-- A fair coin. -/
noncomputable def fairCoin : Measure Bool := (PMF.uniformOfFintype Bool).toMeasure

instance : IsProbabilityMeasure fairCoin := PMF.toMeasure.isProbabilityMeasure _

/-- Independent fair coins. -/
noncomputable def coins : Measure Coins := Measure.infinitePi fun _ => fairCoin

open Classical in
/-- The generator that follows the coins when it chooses between two lists of one element for a user. -/
noncomputable def coinRng (ω : Coins) : SparkRng where
  pick := fun {K} stage key path len n =>
    if h : K = (ℕ × Unit) ∧ len = 2 ∧ n = 1 then [if ω (cast h.1 key, path) then 1 else 0] else List.range (min n len)
  nodup := by
    intro K stage key path len n
    split
    · simp
    · exact List.nodup_range
  lt := by
    intro K stage key path len n i hi
    split at hi
    · rename_i h
      rw [h.2.1]
      rw [List.mem_singleton] at hi
      subst hi
      split <;> omega
    · rw [List.mem_range] at hi
      omega
  length := by
    intro K stage key path len n hn
    split
    · rename_i h; exact h.2.2.symm
    · rw [List.length_range]; omega

theorem coinRng_pick (ω : Coins) (key : ℕ × Unit) (path : List Bool) :
    (coinRng ω).pick keepStage key path 2 1 = [if ω (key, path) then 1 else 0] := by
  unfold coinRng
  dsimp only
  rw [dif_pos ⟨rfl, rfl, rfl⟩]
  rfl

theorem coinRng_fair : FairChoices coins coinRng where
  measurable := by
    intro key path
    simp only [coinRng_pick]
    have : {ω : Coins | [if ω (key, path) = true then 1 else 0] = [1]} = (fun ω : Coins => ω (key, path)) ⁻¹' {true} := by
      ext ω
      cases h : ω (key, path) <;> simp [h]
    rw [this]
    exact measurable_pi_apply _ (measurableSet_singleton _)
  fair := by
    intro F b
    have h : {ω : Coins | ∀ x ∈ F, (coinRng ω).pick keepStage x.1 x.2 2 1 = [if b x then 1 else 0]}
        = Set.pi F fun x => {b x} := by
      ext ω
      simp only [Set.mem_ofPred_eq, Set.mem_pi, coinRng_pick, Set.mem_singleton_iff, Finset.mem_coe]
      apply forall_congr'
      intro x
      apply imp_congr_right
      intro _
      cases ω (x.1, x.2) <;> cases b x <;> simp
    have hc : ∀ b : Bool, fairCoin {b} = 1 / 2 := by
      intro b
      rw [fairCoin, PMF.toMeasure_apply_singleton _ _ (measurableSet_singleton _), PMF.uniformOfFintype_apply, Fintype.card_bool]
      simp
    rw [h, coins, Measure.infinitePi_pi _ fun _ _ => measurableSet_singleton _]
    simp [hc]

/-- The hypotheses of the gap hold for an accountant with total epsilon 1, blocks of 2 rows and these coins: for
`ε' = 5`, `δ' = 9/10` there is a dataset and an event. -/
example (fmt : ℚ → String) (sigma : ℝ → ℝ → ℝ → ℝ) (other : Rng) :
    ∃ s0 ps ops m, Budget.init 1 0 none none = .ok s0 ∧ plan fmt [] [lastQuery] = .ok (ps, ops) ∧
      let s := specOf (Budget.step (Budget.run s0 ops).1 .compute).1
      let S := (released sigma [lastQuery] ps).toFinset
      ∃ L L' : Coins → List (Noisy Unit),
        (∀ ω, evalAll sigma s (fun _ => sparkEnv (coinRng ω) other 2) Prod.fst (crowdAndOne 2 m) 0 [lastQuery] ps = .ok (L ω) ∧
          evalAll sigma s (fun _ => sparkEnv (coinRng ω) other 2) Prod.fst (removeId Prod.fst 0 (crowdAndOne 2 m)) 0 [lastQuery] ps
            = .ok (L' ω)) ∧
        ∃ A : Set (S → ℝ), ENNReal.ofReal (Real.exp 5) * ∫⁻ ω, law S (L' ω) A ∂coins + ENNReal.ofReal (9 / 10)
          < ∫⁻ ω, law S (L ω) A ∂coins := by
  obtain ⟨s0, h0⟩ : ∃ s0, Budget.init 1 0 none none = .ok s0 := ⟨_, rfl⟩
  obtain ⟨ps, ops, hp, hc⟩ := C60_supported_pipeline_runs fmt [lastQuery] (by
    intro q hq
    rw [List.mem_singleton] at hq
    subst hq
    exact lastParams_supported) h0 ⟨by simp, by simp⟩
  obtain ⟨m, -, h⟩ := C77_spark_sampling_breaks_privacy fmt sigma h0 hp hc (c := 2) le_rfl 5 (9 / 10) (by norm_num)
  have : IsProbabilityMeasure coins := by unfold coins; infer_instance
  obtain ⟨L, L', h1, A, -, h2⟩ := h coins coinRng (fun _ => other) coinRng_fair
  exact ⟨s0, ps, ops, m, h0, hp, L, L', fun ω => ⟨(h1 ω).1, (h1 ω).2.1⟩, A, h2⟩

/-- The smallest such dataset: two users with four rows, blocks of two rows. -/
example : blocks 2 (crowd 2 2) = [[(1, 0), (1, 0)], [(1, 0), (1, 1)], [(2, 0), (2, 0)], [(2, 0), (2, 1)]] ∧
    blocks 2 (crowdAndOne 2 2) = [[(0, 0), (1, 0)], [(1, 0), (1, 0)], [(1, 1), (2, 0)], [(2, 0), (2, 0)], [(2, 1)]] := by
  constructor <;> simp [crowd, crowdAndOne, userRows, List.range_succ, blocks]

end PDP.EndToEnd
