import Verif.EndToEnd.Releases
import Verif.EndToEnd.CallsExample

/-!
# A concrete pipeline and dataset for C63
-/

namespace PDP.EndToEnd

open PDP.Engine.AddNoise (specOf)
open PDP PDP.Engine

/-- Users 1 and 2 on days 0 and 5. -/
def exampleData : List (ℕ × ℕ × ℚ) := [(1, 0, 3), (2, 0, 9), (1, 5, 2)]

/-- The rows of the public days. -/
def examplePublicData : List (ℕ × ℕ × ℚ) := [(1, 0, 3), (2, 0, 9)]

theorem example_partitions {p : Params} (hmc : p.maxContributions = none) {l : List (ℕ × ℕ × ℚ)} {days : List ℕ}
    (hl : ∀ r ∈ l, r.2.1 ∈ days) (h : ∀ l0, p.maxPartitions = some l0 → days.length ≤ l0) : WithinPartitionBounds p l := by
  intro u
  constructor
  · intro m hm
    rw [hmc] at hm; cases hm
  · intro _ l0 hl0
    refine le_trans (List.subperm_of_subset (partitionsOf_nodup _ _) ?_).length_le (h l0 hl0)
    intro k hk
    unfold partitionsOf at hk
    rw [List.mem_dedup, List.mem_map] at hk
    obtain ⟨r, hr, rfl⟩ := hk
    exact hl r (List.mem_of_mem_filter hr)

theorem example_rows {p : Params} {l : List (ℕ × ℕ × ℚ)} (hl : (l.map fun r => (r.1, r.2.1)).Nodup)
    (h : ∀ linf, p.maxPerPartition = some linf → 1 ≤ linf) : WithinRowBounds p l := by
  intro u k linf hlinf
  refine le_trans ?_ (h linf hlinf)
  have h1 := List.nodup_iff_count_le_one.mp hl (u, k)
  rw [List.count_eq_length_filter, List.filter_map, List.length_map] at h1
  unfold cell
  rw [List.length_map]
  refine le_trans (le_of_eq ?_) h1
  congr 1
  apply List.filter_congr
  intro r _
  rw [Bool.eq_iff_iff]
  simp

theorem exampleData_within : ∀ c ∈ exampleCalls, c.Within Prod.fst exampleData := by
  intro c hc
  simp only [exampleCalls, List.mem_cons, List.not_mem_nil, or_false] at hc
  have hdays : ∀ r ∈ exampleData, r.2.1 ∈ [0, 5] := by decide +kernel
  have hrows : (exampleData.map fun r => (r.1, r.2.1)).Nodup := by decide +kernel
  rcases hc with rfl | rfl | rfl | rfl
  · refine ⟨by simp, fun _ => ⟨?_, ?_⟩, by simp⟩
    · exact example_partitions rfl hdays (by simp [examplePrivate])
    · exact example_rows hrows (by simp [examplePrivate])
  · refine ⟨by simp, fun _ => ⟨?_, ?_⟩, by simp⟩
    · exact example_partitions rfl hdays (by simp [exampleThresholded])
    · exact example_rows hrows (by simp [exampleThresholded])
  · have hrel : relevant (some [0, 1, 2]) (extract Prod.fst (fun r : ℕ × ℕ × ℚ => r.2.1) (fun r => r.2.2) exampleData)
        = examplePublicData := by decide +kernel
    refine ⟨by simp [exampleVariance], fun _ => ?_, by simp [exampleVariance]⟩
    rw [hrel]
    exact ⟨example_partitions (days := [0]) rfl (by decide +kernel) (by simp [exampleVariance]),
      example_rows (by decide +kernel) (by simp [exampleVariance])⟩
  · intro u
    refine le_trans (List.subperm_of_subset (l₂ := [0, 5]) (List.nodup_dedup _) ?_).length_le (by decide)
    intro k hk
    rw [List.mem_dedup, List.mem_map] at hk
    obtain ⟨r, hr, rfl⟩ := hk
    exact hdays r (List.mem_of_mem_filter hr)

/-- The hypotheses of C63 hold for the four calls of `exampleCalls` on `exampleData`. -/
example (fmt : ℚ → String) : ∃ s0 bs ops L, Budget.init 1 (1 / 1000) none (some [1, 2, 2, 1]) = .ok s0 ∧
    planCalls fmt [] exampleCalls = .ok (bs, ops) ∧
    evalCalls exampleLibrary.sigma (specOf (Budget.step (Budget.run s0 ops).1 .compute).1) (fun _ => exampleEnv firstRng) Prod.fst
      exampleData 0 exampleCalls bs = .ok L ∧ L.length = 4 := by
  obtain ⟨s0, h0⟩ : ∃ s0, Budget.init 1 (1 / 1000) none (some [1, 2, 2, 1]) = .ok s0 := by
    norm_num [Budget.init]
  obtain ⟨bs, ops, h1, h2, -, L, h3, h4⟩ := C63_pipeline_releases_what_is_documented fmt exampleLibrary.sigma exampleCalls
    exampleCalls_supported (by
      intro p pub key value h
      simp only [exampleCalls, List.mem_cons, List.not_mem_nil, or_false, Call.aggregate.injEq, reduceCtorEq] at h
      rcases h with ⟨rfl, -⟩ | ⟨rfl, -⟩ | ⟨rfl, -⟩ <;> simp [examplePrivate, exampleThresholded, exampleVariance])
    h0 (fun _ => by norm_num) ⟨by simp, by intro l hl; cases hl; rfl⟩ (fun _ => exampleEnv firstRng)
    (fun _ => (exampleEnv_lawful _).backend) (fun _ => (exampleEnv_lawful _).combine) Prod.fst exampleData exampleData_within
  refine ⟨s0, bs, ops, L, h0, h1, h3, ?_⟩
  rw [← h4.length_eq, List.length_zip, h2]
  rfl

/-- The second call (SUM within [-1, 7] per user and day, thresholded PRIVACY_ID_COUNT, weight 2 of 6) divides a third of epsilon
equally; the first (MEAN with COUNT and private partitions, weight 1 of 6) divides a sixth among three. -/
example : (shareEps 1 exampleCalls (.aggregate exampleThresholded none (fun r => r.2.1) (fun r => r.2.2),
      ⟨[.sum 3, .thresholding 4], none⟩) 3 = 1 / 6) ∧
    (shareEps 1 exampleCalls (.aggregate examplePrivate none (fun r => r.2.1) (fun r => r.2.2),
      ⟨[.mean 0 1 ["mean", "count"]], some 2⟩) 2 = 1 / 18) := by decide +kernel

/-- On day 0 the sum is 3 + 7 with Laplace noise of scale `4 * 7 / ε`, i.e. sensitivity 28 (four days, at most 7 each). -/
example : documented exampleThresholded exampleData 0 (.sum 3) = [⟨3, 0, 10, 28, Real.sqrt 4 * 7, 1⟩] := by
  have h : ((usersIn 0 exampleData).map fun u => min (max (cell u 0 exampleData).sum (-1)) 7).sum = 10 := by decide +kernel
  have h2 : max |(-1 : ℚ)| |7| = 7 := by norm_num
  simp only [documented, exampleThresholded, h, idChange, h2]
  norm_num

/-- COUNT for private partitions with weight 3: a quarter of epsilon is left for partition selection, with weight 1 it is half. -/
def exampleHeavy (w : ℚ) : Params :=
  { metrics := [.count], noiseKind := .laplace, maxPartitions := some 4, maxPerPartition := some 1, budgetWeight := w }

example (fmt : ℚ → String) : ∃ s0 ops, Budget.init 1 (1 / 1000) none none = .ok s0 ∧
    planCalls fmt [] [Call.aggregate (R := ℕ × ℕ × ℚ) (exampleHeavy 3) none (fun r => r.2.1) (fun r => r.2.2)]
      = .ok ([⟨[.count 0], some 1⟩], ops) ∧
    Budget.seesEps (Budget.step (Budget.run s0 ops).1 .compute).1 1 (1 / 4) := by
  obtain ⟨s0, h0⟩ : ∃ s0, Budget.init 1 (1 / 1000) none none = .ok s0 := by norm_num [Budget.init]
  obtain ⟨bs, ops, h1, rfl, -, h3⟩ := C63_weight_shifts_selection fmt (exampleHeavy 3) (fun r : ℕ × ℕ × ℚ => r.2.1)
    (fun r => r.2.2) ⟨.inr ⟨4, 1, by norm_num, by norm_num, rfl, rfl, rfl⟩, by norm_num [exampleHeavy],
      by simp [exampleHeavy], by simp [exampleHeavy], by simp [exampleHeavy], by simp [exampleHeavy], by simp [exampleHeavy],
      by simp [exampleHeavy], by simp [exampleHeavy]⟩ rfl rfl h0 (by norm_num)
  refine ⟨s0, ops, h0, h1, ?_⟩
  convert h3 using 1
  norm_num [exampleHeavy]

end PDP.EndToEnd
