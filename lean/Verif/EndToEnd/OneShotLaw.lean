import Verif.EndToEnd.Unselected
import Verif.EndToEnd.LossExample

/-!
# A generator of public partitions reveals users (C81)
-/

set_option linter.unusedSectionVars false

namespace PDP.EndToEnd

open PDP PDP.Engine PDP.Approx MeasureTheory
open PDP.Engine.AddNoise (specOf)

variable {R P K : Type} [DecidableEq P] [DecidableEq K]

/-- `aggregate` on `LocalBackend` with a generator of public partitions (`dp_engine.py:66-189`): the partitions that may be
released.  Budgets and combiners are those of public partitions, as for a list. -/
noncomputable def evalOneShot (sigma : ℝ → ℝ → ℝ → ℝ) (s : Specs) (env : Env K) (pid : R → P) (b : Built) (data : List R)
    (p : Params) (gen : List K) (key : R → K) (value : R → ℚ) : Except Err (List (Candidate K)) :=
  match oneShotPartitions env.backend (combinersOf sigma p b.parts) (env.combine (Combiner.compound _).merge) p gen
      (extract pid key value data) with
  | .error e => .error (.engine e)
  | .ok out => out.mapM (candidate sigma s p b)

theorem evalOneShot_nil (sigma : ℝ → ℝ → ℝ → ℝ) (s : Specs) (env : Env K) (pid : R → P) (b : Built) (p : Params) (gen : List K)
    (key : R → K) (value : R → ℚ) :
    evalOneShot sigma s env pid b [] p gen key value = evalCall sigma s env pid b [] (.aggregate p (some gen) key value) := by
  have : oneShotPartitions (P := P) env.backend (combinersOf sigma p b.parts) (env.combine (Combiner.compound _).merge) p gen
      (extract pid key value []) = partitionAccumulators env.backend (combinersOf sigma p b.parts)
        (env.combine (Combiner.compound _).merge) (fun _ _ => true) p (some gen) (extract pid key value []) := by
    have hd : dataAccumulators (P := P) env.backend p (Combiner.compound (combinersOf sigma p b.parts)).sampling
        (Combiner.compound (combinersOf sigma p b.parts)).create (some gen) []
        = dataAccumulators (P := P) env.backend p (Combiner.compound (combinersOf sigma p b.parts)).sampling
        (Combiner.compound (combinersOf sigma p b.parts)).create none [] := by
      simp [dataAccumulators, dropPartitions]
    have hr : (if p.publicFiltered then (([] : List (P × K × ℚ)), gen) else drain [] gen) = ([], gen) := by
      split <;> rfl
    simp only [extract, List.map_nil, oneShotPartitions, oneShotAccumulators, partitionAccumulators, accumulators, hd, hr,
      selectsPrivately, Option.isNone_some, Bool.false_and, Bool.false_eq_true, if_false, addEmptyPublic]
  simp only [evalOneShot, evalCall, this]
  rfl

/-- **C81** (privacy).  `aggregate` on `LocalBackend` with a generator of public partitions.  Let all rows be of one user `u`, and let
the first of them not be in a public partition.  Then no partition is released, while without the user every public partition
is released with certainty.  So no `(e', d')` with `d' < 1` holds, whatever the budget is. -/
theorem C81_generator_reveals_users (fmt : ℚ → String) (lib : Library) {p : Params} {gen : List K} {key : R → K} {value : R → ℚ}
    (hs : SupportedAggregate p (some gen)) (hm : p.metrics ≠ []) (hpf : p.publicFiltered = false)
    (h00 : ∀ lo hi, p.minSum = some lo → p.maxSum = some hi → lo ≤ 0 ∧ 0 ≤ hi)
    {e d : ℚ} {num ws s0} (h0 : Budget.init e d num ws = .ok s0) (hd : p.noiseKind = .gaussian → 0 < d)
    (ha : AnnouncedCalls num ws [Call.aggregate p (some gen) key value]) (env : Env K) (henv : env.Lawful) (pid : R → P)
    (r : R) (rows : List R) (u : P) (hu : ∀ x ∈ r :: rows, pid x = u) (hr : key r ∉ gen) (k : K) (hk : k ∈ gen) :
    ∃ b ops, planCalls fmt [] [Call.aggregate p (some gen) key value] = .ok ([b], ops) ∧
      (Budget.step (Budget.run s0 ops).1 .compute).2 = .unit ∧
      let s := specOf (Budget.step (Budget.run s0 ops).1 .compute).1
      ∃ L L', evalOneShot lib.sigma s env pid b (r :: rows) p gen key value = .ok L ∧
        evalOneShot lib.sigma s env pid b (removeId pid u (r :: rows)) p gen key value = .ok L' ∧
        L = [] ∧ (∀ x, x ∈ L'.map Candidate.key ↔ x ∈ gen) ∧
        ∀ e' d' : ℝ, Indist e' d' (observedLaw lib {(0, k)} ∅ [L']) (observedLaw lib {(0, k)} ∅ [L]) → 1 ≤ d' := by
  obtain ⟨bs, ops, h1, h2, h3, h4⟩ := planned_budgets fmt [Call.aggregate p (some gen) key value]
    (by intro c hc; rw [List.mem_singleton] at hc; subst hc; exact hs)
    (by
      intro p' pub key' value' h
      simp only [List.mem_singleton, Call.aggregate.injEq] at h
      rw [h.1]; exact hm) h0 (by
      rintro ⟨c, hc, h⟩
      rw [List.mem_singleton] at hc
      subst hc
      rcases h with h | h
      · exact hd h
      · cases h) ha
  obtain ⟨b, rfl⟩ := List.length_eq_one_iff.mp h2
  refine ⟨b, ops, h1, h3, ?_⟩
  intro s
  have hb : ∃ rs', build fmt [] (Call.aggregate p (some gen) key value) = (.ok b, rs') := by
    rcases hx : build fmt [] (Call.aggregate p (some gen) key value) with ⟨c, rs'⟩
    rw [planCalls, hx] at h1
    cases c with
    | error e => simp at h1
    | ok b' =>
      simp only [planCalls, Except.ok.injEq, Prod.mk.injEq, List.cons.injEq, and_true] at h1
      exact ⟨rs', by rw [h1.1]⟩
  obtain ⟨rs', hb⟩ := hb
  have hbo := h4 _ (by simp : (Call.aggregate p (some gen) key value, b) ∈ _)
  have hrem : removeId pid u (r :: rows) = [] := by
    unfold removeId
    refine List.filter_eq_nil_iff.mpr fun x hx => ?_
    simp [hu x hx]
  obtain ⟨L', y1, y2⟩ := aggregate_releases (sigma := lib.sigma) hs hb hbo env henv.backend henv.combine pid ([] : List R)
    ⟨fun _ ps _ r hr => (by cases hr), fun _ => ⟨fun u => ⟨fun m _ => by simp [extract, relevant], fun _ l0 _ => by
      simp [extract, relevant, partitionsOf]⟩, fun u k linf _ => by simp [extract, relevant, cell]⟩, fun _ => h00⟩
  obtain ⟨out, x1, x2⟩ := C81_foreign_row_ends_the_input env.backend henv.backend p hs.bounds (combinersOf lib.sigma p b.parts)
    (env.combine (Combiner.compound _).merge) (henv.combine _) gen ([] : List (P × K × ℚ)) (pid r, key r, value r) hr hpf
    (fun _ => ⟨fun u => ⟨fun m _ => by simp, fun _ l0 _ => by simp [partitionsOf]⟩, fun u k linf _ => by simp [cell]⟩)
  have hout : out = [] := by
    cases out with
    | nil => rfl
    | cons x out => exact absurd (x2 x.1 (by simp [resultKeys])) (by simp)
  subst hout
  have hkeys : ∀ x, x ∈ L'.map Candidate.key ↔ x ∈ gen := y2.keys
  refine ⟨[], L', ?_, ?_, rfl, hkeys, ?_⟩
  · simp only [evalOneShot, extract, List.map_cons]
    rw [show (pid r, key r, value r) :: rows.map (fun r => (pid r, key r, value r))
      = [] ++ (pid r, key r, value r) :: rows.map (fun r => (pid r, key r, value r)) from rfl, x1]
    rfl
  · rw [hrem, evalOneShot_nil]
    exact y1
  · intro e' d' h
    refine presence_reveals lib L' [] k ((hkeys k).mpr hk) ?_ (by simp) h
    intro c hc
    rw [y2.gate c hc]
    simp [Call.gate]

/-- The count of partitions `0`, `5` and `9`, and a user with a row in partition `7` only. -/
example (fmt : ℚ → String) (lib : Library) : ∃ s0, Budget.init 1 0 none none = .ok s0 ∧
    ∃ b ops, planCalls fmt [] [(publicCall { metrics := [.count], maxPartitions := some 1, maxPerPartition := some 1 } [0, 5, 9] :
        Call (ℕ × ℕ × ℚ) ℕ)] = .ok ([b], ops) ∧
      let s := specOf (Budget.step (Budget.run s0 ops).1 .compute).1
      ∃ L L', evalOneShot lib.sigma s (exampleEnv firstRng) Prod.fst b [((3 : ℕ), 7, (1 : ℚ))]
          { metrics := [.count], maxPartitions := some 1, maxPerPartition := some 1 } [0, 5, 9] (fun r => r.2.1) (fun r => r.2.2)
            = .ok L ∧
        evalOneShot lib.sigma s (exampleEnv firstRng) Prod.fst b ([] : List (ℕ × ℕ × ℚ))
          { metrics := [.count], maxPartitions := some 1, maxPerPartition := some 1 } [0, 5, 9] (fun r => r.2.1) (fun r => r.2.2)
            = .ok L' ∧
        ∀ e' d' : ℝ, Indist e' d' (observedLaw lib {(0, 5)} ∅ [L']) (observedLaw lib {(0, 5)} ∅ [L]) → 1 ≤ d' := by
  obtain ⟨s0, h0⟩ : ∃ s0, Budget.init 1 0 none none = .ok s0 := by norm_num [Budget.init]
  obtain ⟨b, ops, h1, -, L, L', h2, h3, -, -, h4⟩ := C81_generator_reveals_users fmt lib
    (p := { metrics := [.count], maxPartitions := some 1, maxPerPartition := some 1 }) (gen := [0, 5, 9])
    (key := fun r : ℕ × ℕ × ℚ => r.2.1) (value := fun r => r.2.2)
    ⟨.inr ⟨1, 1, by decide, by decide, rfl, rfl, rfl⟩, by simp, by simp, by simp, by simp, by simp, by simp, by simp, by simp⟩
    (by simp) rfl (by simp) h0 (by simp) (announced_none _) (exampleEnv firstRng) (exampleEnv_lawful _) Prod.fst
    (3, 7, 1) [] 3 (by simp) (by decide) 5 (by decide)
  exact ⟨s0, h0, b, ops, h1, L, L', h2, by simpa [removeId] using h3, h4⟩

end PDP.EndToEnd
