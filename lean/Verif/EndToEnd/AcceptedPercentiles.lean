import Verif.EndToEnd.Accepted
import Verif.EndToEnd.PercentilesCall

/-!
# Which accepted calls with percentiles can be evaluated (C83)

As `Accepted`, for calls whose metrics may also have PERCENTILE.  PyDP's quantile trees (`tree`) are assumed to raise no exception.
-/

set_option linter.unusedSectionVars false

namespace PDP.EndToEnd

open PDP PDP.Engine MeasureTheory
open PDP.Validation (Raw postInit checkAggregate)

variable {R P K V A O : Type} [DecidableEq P] [DecidableEq K] [MeasurableSpace O]

/-- The trees of a partition are evaluated without an exception. -/
theorem evalTrees_runs (tree : TreeLibrary) (fmt : ℚ → String) (sigma : ℝ → ℝ → ℝ → ℝ) (s : Specs) (p : Params)
    (parts : List Part) (hq : ∀ i ps, Part.quantile i ps ∈ parts → ∀ m, ∃ μ, quantileOf tree s p i ps m = .ok μ)
    (a : Combiner.AccTuple (combinersOf sigma p parts)) : ∃ q, evalTrees tree fmt sigma s p parts a = .ok q := by
  induction parts with
  | nil => exact ⟨_, rfl⟩
  | cons part parts ih =>
    cases part <;> try exact ih (fun i ps h => hq i ps (by simp [h])) a.2
    case quantile i ps =>
      obtain ⟨μ, hμ⟩ := hq i ps (by simp) (show Multiset ℚ from a.1)
      obtain ⟨q, h⟩ := ih (fun i ps h => hq i ps (by simp [h])) a.2
      simp only [evalTrees]
      rw [hμ, h]
      exact ⟨_, rfl⟩

section Claims

variable {fmt : ℚ → String} {rs rs' : List Request} {b : Built} {s : Specs} {ε δ : ℕ → ℝ} {sigma : ℝ → ℝ → ℝ → ℝ}
  {pub : Option (List K)} {key : R → K} {value : R → ℚ}

theorem qCandidate_runs {p : Params} {rs1 : List Request} (ha : Accepted p) (hm : NoVectors p)
    (hc : createCompound fmt p rs = (.ok b.parts, rs1)) (hsel : b.selection.isSome = selectsPrivately p pub)
    (hbo : BuiltOk s ε δ p.noiseKind b) (he : Evaluable p pub) (tree : TreeLibrary)
    (e : K × (Combiner.compound (combinersOf sigma p b.parts)).Acc) : ∃ c, qCandidate tree fmt sigma s p b e = .ok c := by
  obtain ⟨c, h1⟩ := candidate_runs (sigma := sigma) ha hm hc hsel hbo he e
  obtain ⟨q, h2⟩ := evalTrees_runs tree fmt sigma s p b.parts (by
    intro i ps hi m
    obtain ⟨x, hx⟩ := (part_cases hm hc).1 _ hi
    obtain ⟨v1, v2⟩ := ha.percentiles x hx
    obtain ⟨lo, hi', w1, w2, -⟩ := ha.values.resolve_left fun h => v1 h.1
    rcases ha.bounds with ⟨m, -, q1, -⟩ | ⟨l0, linf, -, -, q1, q2, q3⟩
    · rw [v2] at q1; cases q1
    · exact ⟨_, quantileOf_ok tree (hbo.parts _ hi i (by simp [Part.specs])) w1 w2 q2 q3 ps m⟩) e.2.2
  exact ⟨⟨c, q⟩, by unfold qCandidate; rw [h1, h2]⟩

theorem qCandidate_stops {p : Params} {rs1 : List Request} (ha : Accepted p) (hm : NoVectors p)
    (hc : createCompound fmt p rs = (.ok b.parts, rs1)) (hsel : b.selection.isSome = selectsPrivately p pub)
    (he : ¬ Evaluable p pub) (tree : TreeLibrary) (e : K × (Combiner.compound (combinersOf sigma p b.parts)).Acc) :
    ∀ c, qCandidate tree fmt sigma s p b e ≠ .ok c := by
  intro c h
  unfold qCandidate at h
  have := candidate_stops (s := s) (sigma := sigma) ha hm hc hsel he e
  cases hx : candidate sigma s p b e with
  | ok c' => exact this _ hx
  | error x => rw [hx] at h; simp at h

/-- **C83** (percentiles).  A call of `aggregate` whose parameters are accepted, with any metrics but VECTOR_SUM, and which meets the
conditions of `Evaluable`, is computed without an exception for all data, once its budgets are computed. -/
theorem C83_evaluable_percentile_calls_run (r : Raw) (h1 : postInit r = .ok ()) (h2 : checkAggregate r = .ok ()) (o : Params)
    (hm : NoVectors (r.arguments o)) (hx : build fmt rs (.aggregate (r.arguments o) pub key value) = (.ok b, rs'))
    (hbo : BuiltOk s ε δ r.noiseKind b) (he : Evaluable (r.arguments o) pub) (tree : TreeLibrary) (env : Env K) (henv : env.Lawful)
    (pid : R → P) (data : List R) :
    ∃ L, evalStepQ tree fmt sigma s env pid data (.call (.aggregate (r.arguments o) pub key value)) (.call b) = .ok L := by
  have ha := accepted_of h1 h2 o hm
  obtain ⟨⟨rs1, hc⟩, hsel⟩ := build_aggregate hx
  obtain ⟨out, hout⟩ := partitionAccumulators_runs env.backend henv.backend ha.bounds
    (combinersOf sigma (r.arguments o) b.parts) (env.combine (Combiner.compound _).merge) pub (extract pid key value data)
  simp only [evalStepQ, hout]
  have hc := qCandidate_runs (sigma := sigma) ha hm hc hsel hbo he tree
  exact ⟨_, mapM_ok' _ (fun e => (hc e).choose) _ fun e _ => (hc e).choose_spec⟩

/-- **C83** (percentiles).  A call with accepted parameters which does not meet these conditions releases no partition, whatever the
data and the budgets are. -/
theorem C83_other_percentile_calls_release_nothing (r : Raw) (h1 : postInit r = .ok ()) (h2 : checkAggregate r = .ok ()) (o : Params)
    (hm : NoVectors (r.arguments o)) (hx : build fmt rs (.aggregate (r.arguments o) pub key value) = (.ok b, rs'))
    (he : ¬ Evaluable (r.arguments o) pub) (tree : TreeLibrary) (env : Env K) (pid : R → P) (data : List R) (L)
    (hL : evalStepQ tree fmt sigma s env pid data (.call (.aggregate (r.arguments o) pub key value)) (.call b) = .ok L) : L = [] := by
  have ha := accepted_of h1 h2 o hm
  obtain ⟨⟨rs1, hc⟩, hsel⟩ := build_aggregate hx
  have hc := qCandidate_stops (s := s) (sigma := sigma) ha hm hc hsel he tree
  simp only [evalStepQ] at hL
  split at hL
  · simp at hL
  · rename_i out hout
    cases out with
    | nil => simpa [pure, Except.pure] using hL.symm
    | cons e out => exact absurd hL (mapM_stops (List.mem_cons_self ..) (hc e) _)

/-- **C83** (percentiles).  With public partitions such a call fails for all data, also for empty data. -/
theorem C83_other_public_percentile_calls_fail (r : Raw) (h1 : postInit r = .ok ()) (h2 : checkAggregate r = .ok ()) (o : Params)
    (hm : NoVectors (r.arguments o)) {ps : List K} (hps : ps ≠ [])
    (hx : build fmt rs (.aggregate (r.arguments o) (some ps) key value) = (.ok b, rs'))
    (he : ¬ Evaluable (r.arguments o) (some ps)) (tree : TreeLibrary) (env : Env K) (henv : env.Lawful) (pid : R → P) (data : List R) :
    ∃ e, evalStepQ tree fmt sigma s env pid data (.call (.aggregate (r.arguments o) (some ps) key value)) (.call b) = .error e := by
  have ha := accepted_of h1 h2 o hm
  obtain ⟨⟨rs1, hc⟩, hsel⟩ := build_aggregate hx
  have hc := qCandidate_stops (s := s) (sigma := sigma) ha hm hc hsel he tree
  obtain ⟨entries, -, hacc⟩ := accumulators_entries env.backend henv.backend (r.arguments o) ha.bounds
    (Combiner.compound (combinersOf sigma (r.arguments o) b.parts)).sampling
    (Combiner.compound (combinersOf sigma (r.arguments o) b.parts)).create (some ps) (extract pid key value data)
  have hC := henv.combine (Combiner.compound (combinersOf sigma (r.arguments o) b.parts)).merge
    (addEmptyPublic (Combiner.compound (combinersOf sigma (r.arguments o) b.parts)).create (some ps)
      (entries.map fun e => (e.1.2, (Combiner.compound (combinersOf sigma (r.arguments o) b.parts)).create e.2)))
  obtain ⟨k, hk⟩ := List.exists_mem_of_ne_nil _ hps
  have hmem := (hC.keys k).mpr (by simp [addEmptyPublic, hk])
  obtain ⟨e, hin, -⟩ := List.mem_map.mp hmem
  simp only [evalStepQ, partitionAccumulators, hacc, bind, Except.bind, pure, Except.pure, selectsPrivately, Option.isNone_some,
    Bool.false_and, Bool.false_eq_true, if_false]
  cases hr : List.mapM (qCandidate tree fmt sigma s (r.arguments o) b) _ with
  | error x => exact ⟨x, rfl⟩
  | ok L => exact absurd hr (mapM_stops hin (hc e) L)

end Claims

/-! ### Examples -/

/-- MEAN and two percentiles of values in [0, 5]. -/
def percentileArguments : Raw :=
  { metrics := some [.mean, .percentile 10, .percentile 90], maxPartitions := some (.int 2), maxPerPartition := some (.int 3),
    minValue := some (.fin 0), maxValue := some (.fin 5) }

/-- SUM in [0, 0] and a percentile: accepted, but the sum cannot be computed. -/
def zeroSums : Raw :=
  { metrics := some [.sum, .percentile 50], maxPartitions := some (.int 2), maxPerPartition := some (.int 3),
    minValue := some (.fin 0), maxValue := some (.fin 0) }

/-- The hypotheses of the first theorem. -/
example : postInit percentileArguments = .ok () ∧ checkAggregate percentileArguments = .ok () ∧
    NoVectors (percentileArguments.arguments { metrics := [] }) ∧
    Evaluable (percentileArguments.arguments { metrics := [] }) (some [1, 2]) ∧
    ∃ b rs', build (fun q => if q = 10 then "10" else "90") [] (.aggregate (percentileArguments.arguments { metrics := [] })
        (some [1, 2]) (fun r : ℕ × ℕ × ℚ => r.2.1) (fun r => r.2.2)) = (.ok b, rs') ∧
      BuiltOk (fun _ => ⟨.laplace, none, some 1, some 0⟩) (fun _ => 1) (fun _ => 0) percentileArguments.noiseKind b := by
  refine ⟨rfl, rfl, ?_, ⟨?_, ?_, ?_⟩, ?_⟩
  · simp [NoVectors, percentileArguments, Raw.arguments]
  · simp [percentileArguments, Raw.arguments]
  · simp [percentileArguments, Raw.arguments, Validation.Num.toRat?]
  · intro h
    exact absurd rfl h
  · refine ⟨⟨[.mean 0 1 ["mean"], .quantile 2 [10, 90]], none⟩, _, rfl, ?_, ?_, ?_⟩
    · intro part hp i hi
      have hk : part.mechanism percentileArguments.noiseKind = .laplace := by
        simp only [List.mem_cons, List.not_mem_nil, or_false] at hp
        rcases hp with rfl | rfl <;> rfl
      exact ⟨by rw [hk]; rfl, by norm_num, le_refl _, fun h => absurd hk h⟩
    · simp
    · decide

/-- The hypotheses of the other theorems. -/
example : postInit zeroSums = .ok () ∧ checkAggregate zeroSums = .ok () ∧ NoVectors (zeroSums.arguments { metrics := [] }) ∧
    (∃ b rs', build (fun _ => "50") [] (.aggregate (zeroSums.arguments { metrics := [] }) (some [1, 2])
        (fun r : ℕ × ℕ × ℚ => r.2.1) (fun r => r.2.2)) = (.ok b, rs')) ∧
    ¬ Evaluable (zeroSums.arguments { metrics := [] }) (some [1, 2]) := by
  refine ⟨rfl, rfl, ?_, ⟨⟨[.sum 0, .quantile 1 [50]], none⟩, _, rfl⟩, fun h => ?_⟩
  · simp [NoVectors, zeroSums, Raw.arguments]
  · have := (h.sum (by simp [zeroSums, Raw.arguments]) (by simp [zeroSums, Raw.arguments]) (by simp [zeroSums, Raw.arguments])).1
    exact this ⟨rfl, rfl⟩

end PDP.EndToEnd
