import Verif.EndToEnd.Unbiased
import Verif.EndToEnd.ReleasesExample

/-!
# Concrete cases for C92
-/

namespace PDP.EndToEnd

open PDP PDP.Engine MeasureTheory
open PDP.Engine.AddNoise (specOf)

theorem exampleHeavy_supported : SupportedAggregate (exampleHeavy 1) (none : Option (List ℕ)) :=
  ⟨.inr ⟨4, 1, by norm_num, by norm_num, rfl, rfl, rfl⟩, by norm_num [exampleHeavy],
      by simp [exampleHeavy], by simp [exampleHeavy], by simp [exampleHeavy], by simp [exampleHeavy], by simp [exampleHeavy],
      by simp [exampleHeavy], by simp [exampleHeavy]⟩

theorem exampleHeavy_within :
    (Call.aggregate (exampleHeavy 1) none (fun r : ℕ × ℕ × ℚ => r.2.1) (fun r => r.2.2)).Within Prod.fst exampleData := by
  have hrel : relevant none (extract Prod.fst (fun r : ℕ × ℕ × ℚ => r.2.1) (fun r => r.2.2) exampleData)
      = exampleData := by decide +kernel
  refine ⟨by simp [exampleHeavy], fun _ => ?_, by simp [exampleHeavy]⟩
  rw [hrel]
  exact ⟨example_partitions (days := [0, 5]) rfl (by decide +kernel) (by simp [exampleHeavy]),
    example_rows (by decide +kernel) (by simp [exampleHeavy])⟩

/-- The day 0 of the first call, and its first number. -/
def dayZero : ({(0, 0)} : Finset (ℕ × ℕ)) := ⟨(0, 0), by simp⟩

/-- COUNT for private partitions with epsilon 1, half of which is for the selection.  Over the runs in which day 0 is released its
count is 2 on average, and in these runs it is wrong by 16 or more with probability `exp (-2)`. -/
example (fmt : ℚ → String) (s0) (h0 : Budget.init 1 (1 / 1000) none none = .ok s0) : ∃ bs ops L,
    evalCalls exampleLibrary.sigma (specOf (Budget.step (Budget.run s0 ops).1 .compute).1) (fun _ => exampleEnv firstRng) Prod.fst
      exampleData 0 [Call.aggregate (exampleHeavy 1) none (fun r : ℕ × ℕ × ℚ => r.2.1) (fun r => r.2.2)] bs = .ok L ∧
    ∫ o in {o | (o.1 dayZero).1 = true}, o.2 (dayZero, dayZero) ∂observedLaw exampleLibrary {(0, 0)} {(0, 0)} L
      = (observedLaw exampleLibrary {(0, 0)} {(0, 0)} L {o | (o.1 dayZero).1 = true}).toReal * 2 ∧
    observedLaw exampleLibrary {(0, 0)} {(0, 0)} L {o | (o.1 dayZero).1 = true ∧ 16 ≤ |o.2 (dayZero, dayZero) - 2|}
      = observedLaw exampleLibrary {(0, 0)} {(0, 0)} L {o | (o.1 dayZero).1 = true} * ENNReal.ofReal (Real.exp (-2)) := by
  have hsup : ∀ c ∈ [Call.aggregate (exampleHeavy 1) none (fun r : ℕ × ℕ × ℚ => r.2.1) (fun r => r.2.2)], c.Supported := by
    intro c hc
    obtain rfl := List.mem_singleton.mp hc
    exact exampleHeavy_supported
  obtain ⟨bs, ops, L, h1, -, h3, h4⟩ := C92_released_numbers_are_accurate fmt exampleLibrary_contract
    [Call.aggregate (exampleHeavy 1) none (fun r : ℕ × ℕ × ℚ => r.2.1) (fun r => r.2.2)] hsup (by
      intro p pub key value h
      simp only [List.mem_singleton, Call.aggregate.injEq] at h
      rcases h with ⟨rfl, -⟩
      simp [exampleHeavy]) h0 (fun _ => by norm_num) ⟨by simp, by intro l hl; cases hl⟩ (fun _ => exampleEnv firstRng)
    (fun _ => (exampleEnv_lawful _).backend) (fun _ => (exampleEnv_lawful _).combine) Prod.fst exampleData (by
      intro c hc
      obtain rfl := List.mem_singleton.mp hc
      exact exampleHeavy_within)
  obtain ⟨rfl, rfl⟩ := (Prod.mk.injEq _ _ _ _).mp (Except.ok.inj h1)
  refine ⟨_, _, L, h3, ?_⟩
  have hdoc : (Call.aggregate (exampleHeavy 1) none (fun r : ℕ × ℕ × ℚ => r.2.1) (fun r => r.2.2)).documented
      ⟨[.count 0], some 1⟩ Prod.fst exampleData 0 = [⟨0, 0, 2, 4, Real.sqrt 4 * 1, 1⟩] := by
    have hv : (valuesIn 0 (relevant none (extract Prod.fst (fun r : ℕ × ℕ × ℚ => r.2.1) (fun r => r.2.2) exampleData))).length = 2 := by
      decide +kernel
    simp only [Call.documented, List.flatMap_cons, List.flatMap_nil, documented, hv, rowChange, exampleHeavy]
    norm_num
  have hshare : shareEps 1 [Call.aggregate (exampleHeavy 1) none (fun r : ℕ × ℕ × ℚ => r.2.1) (fun r => r.2.2)]
      (Call.aggregate (exampleHeavy 1) none (fun r : ℕ × ℕ × ℚ => r.2.1) (fun r => r.2.2), ⟨[.count 0], some 1⟩) 0 = 1 / 2 := by
    decide +kernel
  have h5 := h4 {(0, 0)} {(0, 0)} dayZero dayZero
    (Call.aggregate (exampleHeavy 1) none (fun r => r.2.1) (fun r => r.2.2), ⟨[.count 0], some 1⟩) rfl (by decide +kernel)
    ⟨0, 0, 2, 4, Real.sqrt 4 * 1, 1⟩ (hdoc ▸ List.mem_singleton_self _) rfl
  refine ⟨by simpa using h5.1, ?_⟩
  have h6 := h5.2.1 rfl 16 (by norm_num)
  rw [hshare] at h6
  norm_num at h6 ⊢
  exact h6

end PDP.EndToEnd
