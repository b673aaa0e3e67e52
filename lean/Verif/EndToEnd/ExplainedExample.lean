import Verif.EndToEnd.Explained
import Verif.EndToEnd.ReleasesExample

/-!
# The report of an example pipeline (C90)
-/

namespace PDP.EndToEnd

open PDP PDP.Engine
open PDP.Engine.AddNoise (specOf)

theorem exampleCalls_metrics : ∀ p pub key value, Call.aggregate p pub key value ∈ exampleCalls → p.metrics ≠ [] := by
  intro p pub key value h
  simp only [exampleCalls, List.mem_cons, List.not_mem_nil, or_false, Call.aggregate.injEq, reduceCtorEq] at h
  rcases h with ⟨rfl, -⟩ | ⟨rfl, -⟩ | ⟨rfl, -⟩ <;> simp [examplePrivate, exampleThresholded, exampleVariance]

/-- The four calls of `exampleCalls` release their results and all four can be explained; the epsilons shown in the reports add up to 1, the
deltas to 1/1000 (there are budgets with a delta). -/
example (fmt : ℚ → String) (cutoff : Strategy → ℝ → ℝ → ℝ → Option ℕ → ℝ) :
    ∃ s0 bs ops L Es, Budget.init 1 (1 / 1000) none (some [1, 2, 2, 1]) = .ok s0 ∧ planCalls fmt [] exampleCalls = .ok (bs, ops) ∧
      let s := specOf (Budget.step (Budget.run s0 ops).1 .compute).1
      evalCalls exampleLibrary.sigma s (fun _ => exampleEnv firstRng) Prod.fst exampleData 0 exampleCalls bs = .ok L ∧
      explainCalls exampleLibrary.sigma cutoff s exampleCalls bs = .ok Es ∧ L.length = 4 ∧ Es.length = 4 ∧
      ((Es.flatten.flatMap Explanation.budgets).map Prod.fst).sum = (1 : ℚ) ∧
      ((Es.flatten.flatMap Explanation.budgets).map Prod.snd).sum = (1 / 1000 : ℚ) := by
  obtain ⟨s0, h0⟩ : ∃ s0, Budget.init 1 (1 / 1000) none (some [1, 2, 2, 1]) = .ok s0 := by
    norm_num [Budget.init]
  obtain ⟨bs, ops, h1, h2, -, L, h3, h4⟩ := C63_pipeline_releases_what_is_documented fmt exampleLibrary.sigma exampleCalls
    exampleCalls_supported exampleCalls_metrics
    h0 (fun _ => by norm_num) ⟨by simp, by intro l hl; cases hl; rfl⟩ (fun _ => exampleEnv firstRng)
    (fun _ => (exampleEnv_lawful _).backend) (fun _ => (exampleEnv_lawful _).combine) Prod.fst exampleData exampleData_within
  obtain ⟨bs', ops', h1', Es, h5, h6, h7, h8, h9⟩ := C90_shown_budgets_add_up fmt exampleLibrary.sigma cutoff exampleCalls
    exampleCalls_supported exampleCalls_metrics h0 (fun _ => by norm_num) ⟨by simp, by intro l hl; cases hl; rfl⟩ (by simp [exampleCalls])
  rw [h1, Except.ok.injEq, Prod.mk.injEq] at h1'
  obtain ⟨rfl, rfl⟩ := h1'
  refine ⟨s0, bs, ops, L, Es, h0, h1, h3, h5, ?_, ?_, h8, ?_⟩
  · rw [← h4.length_eq, List.length_zip, h2]
    rfl
  · rw [← h6.length_eq, List.length_zip, h2]
    rfl
  · rcases h9 with h9 | h9
    · exact h9
    · exact absurd ⟨exampleCalls[3], by simp [exampleCalls], by simp [exampleCalls, Call.NeedsDelta]⟩ h9.1

/-- Before `compute_budgets` none of them can be explained. -/
example (fmt : ℚ → String) (cutoff : Strategy → ℝ → ℝ → ℝ → Option ℕ → ℝ) :
    ∃ s0 bs ops, Budget.init 1 (1 / 1000) none (some [1, 2, 2, 1]) = .ok s0 ∧ planCalls fmt [] exampleCalls = .ok (bs, ops) ∧
      (exampleCalls.zip bs).length = 4 ∧
      ∀ x ∈ exampleCalls.zip bs, ∀ E,
        explainCall exampleLibrary.sigma cutoff (specOf (Budget.run s0 ops).1) x.2 x.1 ≠ .ok E := by
  obtain ⟨s0, h0⟩ : ∃ s0, Budget.init 1 (1 / 1000) none (some [1, 2, 2, 1]) = .ok s0 := by
    norm_num [Budget.init]
  obtain ⟨ops, hp⟩ : ∃ ops, planCalls fmt [] exampleCalls =
    .ok ([⟨[.mean 0 1 ["mean", "count"]], some 2⟩, ⟨[.sum 3, .thresholding 4], none⟩,
      ⟨[.variance 5 ["variance"], .privacyIdCount 6], none⟩, ⟨[], some 7⟩], ops) := ⟨_, rfl⟩
  exact ⟨s0, _, ops, h0, hp, rfl, C90_no_report_before_the_budgets fmt _ cutoff _ exampleCalls_supported exampleCalls_metrics h0
    (fun _ => by norm_num) ⟨by simp, by intro l hl; cases hl; rfl⟩ hp⟩

/-- COUNT with four partitions of one row each and epsilon 1/2: the report states a Laplace mechanism with parameter 8, epsilon 1/2 and L1
sensitivity 4. -/
example (sigma : ℝ → ℝ → ℝ → ℝ) (cutoff : Strategy → ℝ → ℝ → ℝ → Option ℕ → ℝ) :
    explainPart sigma cutoff (fun _ => ⟨.laplace, none, some (1 / 2), some 0⟩) (exampleHeavy 1) (.count 0)
      = .ok (.count (.laplace 8 (1 / 2) 4)) := by
  have h : sensCount (exampleHeavy 1) = .ok ⟨some 4, some 1, some 4, some (Real.sqrt 4 * 1)⟩ := by
    norm_num [sensCount, exampleHeavy, mkSens, positiveOrNone, l1Sens, l2Sens]
  simp only [explainPart, describeMechanism, h]
  norm_num [additive, Mechanism.createAdditive, Mechanism.noiseKind, Mechanism.computed, Mechanism.laplaceFromEpsilon, Mechanism.pyLaplace,
    pyArgs, describe, bind, Except.bind, pure, Except.pure, Except.map]

/-- The hypotheses of the gap hold for VECTOR_SUM with Gaussian noise as second request of a pipeline. -/
example (fmt : ℚ → String) :
    let p : Params := { metrics := [.vectorSum], noiseKind := .gaussian, maxPartitions := some 4, maxPerPartition := some 1 }
    ∃ b rs', build fmt [⟨.generic, 1⟩] (Call.aggregate (R := ℕ × ℕ × ℚ) p (some [0, 1]) (fun r => r.2.1) (fun r => r.2.2)) = (.ok b, rs') ∧
      b.specs = [1] := by
  exact ⟨_, _, rfl, rfl⟩

end PDP.EndToEnd
