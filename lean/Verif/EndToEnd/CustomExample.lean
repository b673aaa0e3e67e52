import Verif.EndToEnd.CustomMore

/-! # Custom combiners: the example of the repository, and objects which are used twice (C74) -/

set_option linter.unusedSectionVars false

namespace PDP.EndToEnd

open PDP PDP.Engine MeasureTheory
open PDP.Engine.Mechanism (Additive createAdditive computed)
open PDP.Engine.AddNoise (specOf)
open PDP.Budget (State Op MechType Out)
open PDP.Approx (Indist)

variable {R P K V A O : Type} [DecidableEq P] [DecidableEq K] [MeasurableSpace O]

/-- `CountCombiner` of `examples/experimental/custom_combiners.py:54-89`.  Simplified: a missing bound counts as 0 (in the code it
raises `TypeError`). -/
noncomputable def countClass : CustomClass V ℕ ℝ where
  requests _ := [⟨.laplace, 1⟩]
  create _ vs := vs.length
  merge _ a b := a + b
  compute p bs a := noisy (.laplace ((p.maxPerPartition.getD 0 * p.maxPartitions.getD 0 : ℝ) / (bs.map Prod.fst).sum) 1) a
  sampling := true

theorem countClass_total (p : Params) (l : List (List V)) : (countClass (V := V)).total p l = (l.map List.length).sum := by
  cases l with
  | nil => rfl
  | cons x l =>
    show (l.map List.length).foldl (fun a b => a + b) x.length = _
    rw [List.map_cons, List.sum_cons]
    generalize x.length = n
    induction l generalizing n with
    | nil => simp
    | cons y l ih => rw [List.map_cons, List.foldl_cons, ih]; simp [Nat.add_assoc]

/-- **C74** (the example of the repository keeps the contract), for calls with bounds on partitions and on contributions per
partition. -/
theorem C74_example_count_is_private (p : Params) {l0 linf : ℕ} (h0 : p.maxPartitions = some l0) (hi : p.maxPerPartition = some linf)
    (p0 : 0 < l0) (pi : 0 < linf) : (countClass (V := V)).Private p := by
  have hs : (0 : ℝ) < (linf : ℝ) * l0 := by positivity
  have one : ∀ bs, ValidBudgets ((countClass (V := V)).requests p) bs → ∃ e d, bs = [(e, d)] ∧ 0 < e ∧ 0 ≤ d := by
    intro bs hb
    cases hb with
    | cons h1 h2 =>
      cases h2
      exact ⟨_, _, rfl, h1.1, h1.2.1⟩
  have hcomp : ∀ (e d : ℝ) a, (countClass (V := V)).compute p [(e, d)] a = noisy (.laplace ((linf : ℝ) * l0 / e) 1) a := by
    intro e d a
    simp [countClass, h0, hi]
  refine ⟨fun a b => Nat.add_comm a b, fun a b d => Nat.add_assoc a b d, ?_, ?_⟩
  · intro bs hb a
    obtain ⟨e, d, rfl, he, -⟩ := one bs hb
    rw [hcomp]
    exact noisy_laplace_prob (div_pos hs he) _ _
  · intro bs hb K _ X Y E hE hXY
    obtain ⟨e, d, rfl, he, hd⟩ := one bs hb
    simp only [hcomp, countClass_total, List.map_cons, List.map_nil, List.sum_cons, List.sum_nil, add_zero]
    -- the number of values that the privacy id adds
    have hadd : ∀ k, ((X k).map List.length).sum = ((valuesOf k E).map List.length).sum + ((Y k).map List.length).sum := by
      intro k
      rw [((hXY k).map List.length).sum_eq, List.map_append, List.sum_append]
    have hle : ∀ k, ((valuesOf k E).map List.length).sum ≤ linf := hE.perPartition linf hi (Or.inl rfl)
    have hz : ∀ k, k ∉ E.map Prod.fst → ((valuesOf k E).map List.length).sum = 0 := by
      intro k hk
      have : valuesOf k E = [] := by
        unfold valuesOf
        rw [List.map_eq_nil_iff, List.filter_eq_nil_iff]
        intro x hx hxk
        exact hk (List.mem_map.mpr ⟨x, hx, by simpa using hxk⟩)
      rw [this]; rfl
    have hsum : ∀ {ι : Type} [Fintype ι] (f : ι → K), Function.Injective f →
        ∑ i, ((((valuesOf (f i) E).map List.length).sum : ℕ) : ℝ) ≤ (linf : ℝ) * l0 := by
      intro ι _ f hf
      classical
      have h1 : ∑ i, ((valuesOf (f i) E).map List.length).sum ≤ linf * l0 := by
        calc ∑ i, ((valuesOf (f i) E).map List.length).sum
            = ∑ k ∈ Finset.univ.map ⟨f, hf⟩, ((valuesOf k E).map List.length).sum := by rw [Finset.sum_map]; rfl
          _ = ∑ k ∈ (Finset.univ.map ⟨f, hf⟩).filter (· ∈ E.map Prod.fst), ((valuesOf k E).map List.length).sum := by
              rw [Finset.sum_filter]
              refine Finset.sum_congr rfl fun k _ => ?_
              split
              · rfl
              · rename_i h; exact hz k h
          _ ≤ ((Finset.univ.map ⟨f, hf⟩).filter (· ∈ E.map Prod.fst)).card * linf := by
              rw [← smul_eq_mul]
              exact Finset.sum_le_card_nsmul _ _ _ fun k _ => hle k
          _ ≤ (E.map Prod.fst).dedup.length * linf := by
              apply Nat.mul_le_mul_right
              rw [← List.card_toFinset]
              apply Finset.card_le_card
              intro k hk
              rw [List.mem_toFinset]
              exact (Finset.mem_filter.mp hk).2
          _ ≤ l0 * linf := Nat.mul_le_mul_right _ (hE.partitions l0 h0)
          _ = linf * l0 := Nat.mul_comm _ _
      exact_mod_cast h1
    constructor
    · intro ι _ f hf
      refine (laplace_group he hs _ _ (le_trans (le_of_eq ?_) (hsum f hf)) 1).mono le_rfl hd
      refine Finset.sum_congr rfl fun i _ => ?_
      rw [hadd, Nat.cast_add]
      rw [add_sub_cancel_right, abs_of_nonneg (Nat.cast_nonneg _)]
    · intro ι _ f hf
      refine (laplace_group he hs _ _ (le_trans (le_of_eq ?_) (hsum f hf)) 1).mono le_rfl hd
      refine Finset.sum_congr rfl fun i _ => ?_
      rw [hadd, Nat.cast_add]
      rw [abs_sub_comm, add_sub_cancel_right, abs_of_nonneg (Nat.cast_nonneg _)]

/-! ### A pipeline -/

/-- Two counts per day by custom combiners, on private days, and one on public days. -/
def exampleCustom : Params where
  metrics := []
  maxPartitions := some 2
  maxPerPartition := some 3

/-- Two counts by the objects 0 and 1 for private days, a count by the object 2 for public days with double weight, and the steps of
C73's example. -/
def exampleX : List (XStep (ℕ × ℕ × ℚ) ℕ ℚ) :=
  .custom ⟨exampleCustom, none, fun r => r.2.1, fun r => r.2.2, [0, 1]⟩ ::
  .custom ⟨{ exampleCustom with budgetWeight := 2 }, some [0, 1], fun r => r.2.1, fun r => r.2.2, [2]⟩ ::
  exampleSteps.map .step

theorem exampleX_supported : ∀ c ∈ exampleX, c.Supported fun _ => countClass := by
  intro c hc
  simp only [exampleX, List.mem_cons, List.mem_map] at hc
  rcases hc with rfl | rfl | ⟨c, hc, rfl⟩
  · refine ⟨?_, by simp [exampleCustom], rfl, fun _ => ⟨rfl, rfl⟩, by simp, ?_, ?_⟩
    · simp [Params.BoundsValid, exampleCustom]
    · intro o _ r hr
      simp only [countClass, List.mem_singleton] at hr
      subst hr
      exact one_pos
    · intro o _
      exact C74_example_count_is_private _ (l0 := 2) (linf := 3) rfl rfl (by norm_num) (by norm_num)
  · refine ⟨?_, by simp, rfl, by simp, by simp, ?_, ?_⟩
    · simp [Params.BoundsValid, exampleCustom]
    · intro o _ r hr
      simp only [countClass, List.mem_singleton] at hr
      subst hr
      exact one_pos
    · intro o _
      exact C74_example_count_is_private _ (l0 := 2) (linf := 3) rfl rfl (by norm_num) (by norm_num)
  · simp only [exampleSteps, List.mem_cons, List.mem_append, List.mem_map, List.not_mem_nil, or_false] at hc
    rcases hc with rfl | ⟨c, hc, rfl⟩ | rfl
    · exact ⟨⟨2, rfl, by norm_num⟩, ⟨1, rfl, by norm_num⟩, by norm_num⟩
    · exact exampleCalls_supported c hc
    · exact ⟨⟨2, rfl, by norm_num⟩, ⟨1, rfl, by norm_num⟩, by norm_num⟩

/-- The hypotheses of C74 hold for this pipeline with total budget (1, 1/1000) and announced weights, on every dataset, for every
user. -/
example (fmt : ℚ → String) (data : List (ℕ × ℕ × ℚ)) (u : ℕ) :
    ∃ s0 bs ops st', Budget.init 1 (1 / 1000) none (some [1, 2, 2, 1, 2, 2, 1, 1]) = .ok s0 ∧
      planX (fun _ => countClass) fmt [] (fun _ => none) exampleX = .ok (bs, ops, st') ∧ bs.length = 8 ∧
      let s := specOf (Budget.step (Budget.run s0 ops).1 .compute).1
      ∃ L L' : Unit → List (List (Candidate ℕ) × List (CustomCandidate ℕ ℝ)),
        (∀ ω, evalX (fun _ => countClass) exampleLibrary.sigma s st' (fun _ => exampleEnv firstRng) Prod.fst data 0 exampleX bs = .ok (L ω) ∧
          evalX (fun _ => countClass) exampleLibrary.sigma s st' (fun _ => exampleEnv firstRng) Prod.fst
            (data.filter fun r => r.1 ≠ u) 0 exampleX bs = .ok (L' ω)) ∧
        ∀ (U : Finset (ℕ × ℕ)) (S : Finset (ℕ × ℕ)) (T : Finset ℕ), ∀ A, MeasurableSet A →
          observedX exampleLibrary 0 U S T (L ()) A
            ≤ ENNReal.ofReal (Real.exp 1) * observedX exampleLibrary 0 U S T (L' ()) A + ENNReal.ofReal (1 / 1000) := by
  obtain ⟨s0, h0⟩ : ∃ s0, Budget.init 1 (1 / 1000) none (some [1, 2, 2, 1, 2, 2, 1, 1]) = .ok s0 := by
    norm_num [Budget.init]
  obtain ⟨bs, ops, st', hp, -, hc⟩ := C74_supported_pipeline_runs fmt (fun _ => countClass) exampleX exampleX_supported h0
    (fun _ => by norm_num) ⟨by simp, by intro l hl; cases hl; rfl⟩ fun _ => none
  have hn : (exampleX.flatMap XStep.objects).Nodup := by
    have : exampleX.flatMap XStep.objects = [0, 1, 2] := rfl
    rw [this]; decide
  refine ⟨s0, bs, ops, st', h0, hp, ?_, ?_⟩
  · rw [(C74_each_combiner_uses_its_own_budgets fmt _ _ exampleX_supported hn hp).2.1]; rfl
  obtain ⟨L, L', h1, h2⟩ := C74_custom_pipeline_is_differentially_private fmt exampleLibrary exampleLibrary_contract
    (fun _ => countClass) (0 : ℝ) h0 exampleX exampleX_supported hn (fun _ => by norm_num) hp hc (Measure.dirac ())
    (fun _ _ => exampleEnv firstRng) (fun _ _ => exampleEnv_lawful _) Prod.fst data u (by
      intro c hc
      simp only [exampleX, List.mem_cons, List.mem_map] at hc
      rcases hc with rfl | rfl | ⟨c, hc, rfl⟩
      · exact ⟨⟨fun h => by simp [exampleCustom] at h, fun h => by simp [exampleCustom] at h⟩, fun h => by simp [exampleCustom] at h⟩
      · exact ⟨⟨fun h => by simp [exampleCustom] at h, fun h => by simp [exampleCustom] at h⟩, fun h => by simp [exampleCustom] at h⟩
      · simp only [exampleSteps, List.mem_cons, List.mem_append, List.mem_map, List.not_mem_nil, or_false] at hc
        rcases hc with rfl | ⟨c, hc, rfl⟩ | rfl
        · exact usersPerDay_sensitive _ _ data u
        · show Call.Promised Prod.fst data u c
          simp only [exampleCalls, List.mem_cons, List.not_mem_nil, or_false] at hc
          rcases hc with rfl | rfl | rfl | rfl
          · exact ⟨⟨fun h => by simp [examplePrivate] at h, fun h => by simp [examplePrivate] at h⟩,
              fun h => by simp [examplePrivate] at h⟩
          · exact ⟨⟨fun h => by simp [exampleThresholded] at h, fun h => by simp [exampleThresholded] at h⟩,
              fun h => by simp [exampleThresholded] at h⟩
          · exact ⟨⟨fun h => by simp [exampleVariance] at h, fun h => by simp [exampleVariance] at h⟩,
              fun h => by simp [exampleVariance] at h⟩
          · trivial
        · exact usersPerDay_sensitive _ _ data u)
  refine ⟨L, L', h1, fun U S T A hA => ?_⟩
  have := ((h2 U S T).2 A hA).1
  simpa using this

/-! ### Objects which are used twice -/

/-- Parameters of the calls below. -/
def reusedParams (w : ℚ) : Params where
  metrics := []
  maxPartitions := some 1
  maxPerPartition := some 1
  budgetWeight := w

/-- Two counts by the same object, on the public partition 0, the second one with double weight. -/
def reused : List (XStep (ℕ × ℕ × ℚ) ℕ ℚ) :=
  [.custom ⟨reusedParams 1, some [0], fun r => r.2.1, fun r => r.2.2, [0]⟩,
   .custom ⟨reusedParams 2, some [0], fun r => r.2.1, fun r => r.2.2, [0]⟩]

/-- The object has the second budget in the end. -/
theorem reused_plan (fmt : ℚ → String) : ∃ s0 st', Budget.init 1 0 none none = .ok s0 ∧
    planX (fun _ => countClass) fmt [] (fun _ => none) reused = .ok ([.custom [[0]] none, .custom [[1]] none],
      callOps 1 [⟨.laplace, 1⟩] ++ (callOps 2 [⟨.laplace, 1⟩] ++ []), st') ∧ st' 0 = some (reusedParams 2, [1]) ∧
    (Budget.step (Budget.run s0 (callOps 1 [⟨.laplace, 1⟩] ++ (callOps 2 [⟨.laplace, 1⟩] ++ []))).1 .compute).2 = .unit ∧
    ∀ s, s = specOf (Budget.step (Budget.run s0 (callOps 1 [⟨.laplace, 1⟩] ++ (callOps 2 [⟨.laplace, 1⟩] ++ []))).1 .compute).1 →
      computed (s 1).eps = .ok ((2 / 3 : ℚ) : ℝ) ∧ computed (s 1).delta = .ok ((0 : ℚ) : ℝ) := by
  refine ⟨_, _, rfl, rfl, rfl, by decide +kernel, ?_⟩
  rintro s rfl
  have h : (Budget.step (Budget.run ⟨1, 0, none, none, [], [], [], false⟩
      (callOps 1 [⟨.laplace, 1⟩] ++ (callOps 2 [⟨.laplace, 1⟩] ++ []))).1 .compute).1.mechs[1]?
        = some ⟨.laplace, 1, 2, 1, some (2 / 3), some 0⟩ := by
    decide +kernel
  simp only [specOf]
  rw [h]
  exact ⟨rfl, rfl⟩

theorem reused_budgets {s : Specs} {st : Store} (hst : st 0 = some (reusedParams 2, [1]))
    (h1 : computed (s 1).eps = .ok ((2 / 3 : ℚ) : ℝ)) (h2 : computed (s 1).delta = .ok ((0 : ℚ) : ℝ)) :
    ([0] : List ℕ).mapM (ready (V := ℚ) (fun _ => countClass) s st)
      = .ok [⟨fun vs => vs.length, fun a b => a + b, fun a => noisy (.laplace (3 / 2) 1) a⟩] := by
  have e1 : ready (V := ℚ) (fun _ => countClass) s st 0
      = .ok ⟨fun vs => vs.length, fun a b => a + b, fun a => noisy (.laplace (3 / 2) 1) a⟩ := by
    simp only [ready, hst, readBudgets, h1, h2]
    congr 2
    funext a
    simp [countClass, reusedParams]
  rw [List.mapM_cons, e1]
  rfl

/-- Both calls use the second budget. -/
theorem reused_eval {s : Specs} {st : Store} (hst : st 0 = some (reusedParams 2, [1]))
    (h1 : computed (s 1).eps = .ok ((2 / 3 : ℚ) : ℝ)) (h2 : computed (s 1).delta = .ok ((0 : ℚ) : ℝ)) (w : ℚ) :
    evalCustom (fun _ => countClass) s st (exampleEnv firstRng) Prod.fst none [(7, 0, 1)]
      ⟨reusedParams w, some [0], fun r : ℕ × ℕ × ℚ => r.2.1, fun r => r.2.2, [0]⟩
      = .ok [⟨0, .always, [noisy (.laplace (3 / 2) 1) 1]⟩] ∧
    evalCustom (fun _ => countClass) s st (exampleEnv firstRng) Prod.fst none []
      ⟨reusedParams w, some [0], fun r : ℕ × ℕ × ℚ => r.2.1, fun r => r.2.2, [0]⟩
      = .ok [⟨0, .always, [noisy (.laplace (3 / 2) 1) 0]⟩] := by
  have key : ∀ (r : ReadyCombiner ℚ ℕ ℝ), r.create = (fun vs => vs.length) → r.merge = (fun a b => a + b) →
      ∃ a a', accumulators (exampleEnv firstRng).backend (reusedParams w) true (customCreate [r]) (some [0]) [((7 : ℕ), 0, 1)] = .ok a ∧
        (exampleEnv firstRng).combine (customMerge [r]) a = [(0, (2, [1]))] ∧
        accumulators (exampleEnv firstRng).backend (reusedParams w) true (customCreate [r]) (some [0]) ([] : List (ℕ × ℕ × ℚ)) = .ok a' ∧
        (exampleEnv firstRng).combine (customMerge [r]) a' = [(0, (1, [0]))] := by
    rintro ⟨create, merge, compute⟩ rfl rfl
    exact ⟨[(0, (1, [1])), (0, (1, [0]))], [(0, (1, [0]))], rfl, rfl, rfl, rfl⟩
  obtain ⟨a, a', k1, k2, k3, k4⟩ := key ⟨fun vs => vs.length, fun a b => a + b, fun a => noisy (.laplace (3 / 2) 1) a⟩ rfl rfl
  constructor
  · unfold evalCustom
    rw [reused_budgets hst h1 h2]
    dsimp only
    have : CustomCall.sampling (V := ℚ) (fun _ => countClass)
        (⟨reusedParams w, some [0], fun r : ℕ × ℕ × ℚ => r.2.1, fun r => r.2.2, [0]⟩ : CustomCall (ℕ × ℕ × ℚ) ℕ ℚ) = true := rfl
    rw [this]
    rw [show CustomCall.rows Prod.fst (⟨reusedParams w, some [0], fun r : ℕ × ℕ × ℚ => r.2.1, fun r => r.2.2, [0]⟩ :
      CustomCall (ℕ × ℕ × ℚ) ℕ ℚ) [(7, 0, 1)] = [(7, 0, 1)] from rfl, k1]
    dsimp only
    rw [k2, List.mapM_cons, List.mapM_nil]
    simp [customGate, reusedParams, customCompute, pure, Except.pure, bind, Except.bind]
  · unfold evalCustom
    rw [reused_budgets hst h1 h2]
    dsimp only
    have : CustomCall.sampling (V := ℚ) (fun _ => countClass)
        (⟨reusedParams w, some [0], fun r : ℕ × ℕ × ℚ => r.2.1, fun r => r.2.2, [0]⟩ : CustomCall (ℕ × ℕ × ℚ) ℕ ℚ) = true := rfl
    rw [this]
    rw [show CustomCall.rows Prod.fst (⟨reusedParams w, some [0], fun r : ℕ × ℕ × ℚ => r.2.1, fun r => r.2.2, [0]⟩ :
      CustomCall (ℕ × ℕ × ℚ) ℕ ℚ) [] = [] from rfl, k3]
    dsimp only
    rw [k4, List.mapM_cons, List.mapM_nil]
    simp [customGate, reusedParams, customCompute, pure, Except.pure, bind, Except.bind]

theorem measurable_atLeastOne {X ι κ : Type} [MeasurableSpace X] [Countable ι] [Countable κ] :
    MeasurableSet {y : X × ((ι → Bool × ℝ) × (κ → ℝ)) | (∀ u, (y.2.1 u).1 = true) ∧ ∀ i, 1 ≤ y.2.2 i} := by
  rw [show {y : X × ((ι → Bool × ℝ) × (κ → ℝ)) | (∀ u, (y.2.1 u).1 = true) ∧ ∀ i, 1 ≤ y.2.2 i}
      = (⋂ u, {y | (y.2.1 u).1 = true}) ∩ ⋂ i, {y | 1 ≤ y.2.2 i} by ext; simp]
  refine MeasurableSet.inter (MeasurableSet.iInter fun u => ?_) (MeasurableSet.iInter fun i => ?_)
  · have h : Measurable fun y : X × ((ι → Bool × ℝ) × (κ → ℝ)) => (y.2.1 u).1 := by fun_prop
    exact h (MeasurableSet.singleton true)
  · have h : Measurable fun y : X × ((ι → Bool × ℝ) × (κ → ℝ)) => y.2.2 i := by fun_prop
    exact h measurableSet_Ici

/-- The probability that both counts are at least 1. -/
theorem reused_event (lib : Library) (m : ℝ) :
    let L : List (List (Candidate ℕ) × List (CustomCandidate ℕ ℝ)) :=
      [([], [⟨0, .always, [noisy (.laplace (3 / 2) 1) m]⟩]), ([], [⟨0, .always, [noisy (.laplace (3 / 2) 1) m]⟩])]
    observedX lib (0 : ℝ) {(0, 0), (1, 0)} ∅ {0} L
      {y | (∀ u, (y.2.1 u).1 = true) ∧ ∀ i, 1 ≤ y.2.2 i} = noisy (.laplace (3 / 2) 1) m {v | 1 ≤ v} ^ 2 := by
  intro L
  set U : Finset (ℕ × ℕ) := {(0, 0), (1, 0)} with hU
  have hdec : ∀ u : U, customDecision lib ((L.map Prod.snd).getD u.1.1 []) u.1.2 = Measure.dirac (true, 0) := by
    rintro ⟨⟨j, k⟩, hu⟩
    simp only [hU, Finset.mem_insert, Finset.mem_singleton, Prod.mk.injEq] at hu
    rcases hu with ⟨rfl, rfl⟩ | ⟨rfl, rfl⟩ <;> rfl
  have hout : ∀ i : U × ({0} : Finset ℕ), customOutput (0 : ℝ) ((L.map Prod.snd).getD i.1.1.1 []) i.1.1.2 i.2.1
      = noisy (.laplace (3 / 2) 1) m := by
    rintro ⟨⟨⟨j, k⟩, hu⟩, ⟨t, ht⟩⟩
    simp only [hU, Finset.mem_insert, Finset.mem_singleton, Prod.mk.injEq] at hu ht
    subst ht
    rcases hu with ⟨rfl, rfl⟩ | ⟨rfl, rfl⟩ <;> rfl
  have hprob := noisy_laplace_prob (b := 3 / 2) (by norm_num) 1 m
  have hset : MeasurableSet {y : ((U → Bool × ℝ) × (U × (∅ : Finset (ℕ × ℕ)) → ℝ)) × ((U → Bool × ℝ) × (U × ({0} : Finset ℕ) → ℝ)) |
      (∀ u, (y.2.1 u).1 = true) ∧ ∀ i, 1 ≤ y.2.2 i} := measurable_atLeastOne
  have hfirst : IsProbabilityMeasure (observedLaw lib U ∅ (L.map Prod.fst)) := by
    refine observedLaw_prob (L' := L.map Prod.fst) (fun j => ?_) U ∅
    have hj : (L.map Prod.fst).getD j [] = [] := by
      match j with
      | 0 => rfl
      | 1 => rfl
      | j + 2 => rfl
    rw [hj]
    exact (empty_pair lib).choose
  have hC : MeasurableSet {y : (U → Bool × ℝ) × (U × ({0} : Finset ℕ) → ℝ) | (∀ u, (y.1 u).1 = true) ∧ ∀ i, 1 ≤ y.2 i} :=
    (measurable_prodMk_left (x := (fun _ => (true, 0), fun _ => 0))) hset
  unfold observedX veiledLaw
  simp only [hdec, hout]
  rw [show {y : ((U → Bool × ℝ) × (U × (∅ : Finset (ℕ × ℕ)) → ℝ)) × ((U → Bool × ℝ) × (U × ({0} : Finset ℕ) → ℝ)) |
      (∀ u, (y.2.1 u).1 = true) ∧ ∀ i, 1 ≤ y.2.2 i}
      = Set.univ ×ˢ {y | (∀ u, (y.1 u).1 = true) ∧ ∀ i, 1 ≤ y.2 i} by ext y; simp]
  rw [Measure.prod_prod, measure_univ, one_mul, Measure.map_apply (measurable_veil _) hC]
  rw [show veil (0 : ℝ) ⁻¹' {y : (U → Bool × ℝ) × (U × ({0} : Finset ℕ) → ℝ) | (∀ u, (y.1 u).1 = true) ∧ ∀ i, 1 ≤ y.2 i}
      = (Set.univ.pi fun _ => {b : Bool × ℝ | b.1 = true}) ×ˢ (Set.univ.pi fun _ => {v : ℝ | 1 ≤ v}) by
    ext x
    simp only [veil, Set.mem_preimage, Set.mem_ofPred_eq, Set.mem_prod, Set.mem_pi, Set.mem_univ, true_implies]
    constructor
    · rintro ⟨h1, h2⟩
      refine ⟨h1, fun i => ?_⟩
      have := h2 i
      rwa [if_pos (h1 i.1)] at this
    · rintro ⟨h1, h2⟩
      refine ⟨h1, fun i => ?_⟩
      rw [if_pos (h1 i.1)]
      exact h2 i]
  rw [Measure.prod_prod, Measure.pi_pi, Measure.pi_pi, Finset.prod_const, Finset.prod_const]
  have hd : Measure.dirac ((true, 0) : Bool × ℝ) {b : Bool × ℝ | b.1 = true} = 1 := by
    apply Measure.dirac_apply_of_mem
    rfl
  have hcard : (Finset.univ : Finset (U × ({0} : Finset ℕ))).card = 2 := by
    rw [Finset.card_univ, Fintype.card_prod, Fintype.card_coe, Fintype.card_coe]
    rfl
  rw [hd, one_pow, one_mul, hcard]

/-- **C74** (an object which is used in two calls): the pipeline is not private.  The parameters of the calls and the combiner keep
their contracts, only the object is the same; both calls compute with the budget of the second one.  With total budget (1, 0), the
event that both counts are at least 1 has probability 1/4 on a dataset with one row, and `exp(-4/3)/4` on the empty one. -/
theorem C74_reused_object_breaks_privacy (fmt : ℚ → String) (lib : Library) :
    ∃ (cs : List (XStep (ℕ × ℕ × ℚ) ℕ ℚ)) (cls : ℕ → CustomClass ℚ ℕ ℝ) (data : List (ℕ × ℕ × ℚ)) (u : ℕ) (s0 : State)
        (bs : List BuiltX) (ops : List Op) (st' : Store) (L L' : List (List (Candidate ℕ) × List (CustomCandidate ℕ ℝ))) (U : Finset (ℕ × ℕ)) (T : Finset ℕ),
      (∀ c ∈ cs, c.Supported cls) ∧ (∀ c ∈ cs, ¬ c.NeedsDelta cls) ∧ (∀ c ∈ cs, c.Promised Prod.fst data u) ∧
      Budget.init 1 0 none none = .ok s0 ∧ planX cls fmt [] (fun _ => none) cs = .ok (bs, ops, st') ∧
      (Budget.step (Budget.run s0 ops).1 .compute).2 = .unit ∧
      evalX cls lib.sigma (specOf (Budget.step (Budget.run s0 ops).1 .compute).1) st' (fun _ => exampleEnv firstRng) Prod.fst data 0 cs bs
        = .ok L ∧
      evalX cls lib.sigma (specOf (Budget.step (Budget.run s0 ops).1 .compute).1) st' (fun _ => exampleEnv firstRng) Prod.fst
        (data.filter fun r => r.1 ≠ u) 0 cs bs = .ok L' ∧
      ∃ B, MeasurableSet B ∧
        ENNReal.ofReal (Real.exp 1) * observedX lib 0 U ∅ T L' B < observedX lib 0 U ∅ T L B := by
  obtain ⟨s0, st', h0, hp, hst, hc, hs⟩ := reused_plan fmt
  obtain ⟨b1, b2⟩ := hs _ rfl
  have hev := reused_eval hst b1 b2
  refine ⟨reused, fun _ => countClass, [(7, 0, 1)], 7, s0, _, _, st',
    [([], [⟨0, .always, [noisy (.laplace (3 / 2) 1) 1]⟩]), ([], [⟨0, .always, [noisy (.laplace (3 / 2) 1) 1]⟩])],
    [([], [⟨0, .always, [noisy (.laplace (3 / 2) 1) 0]⟩]), ([], [⟨0, .always, [noisy (.laplace (3 / 2) 1) 0]⟩])],
    {(0, 0), (1, 0)}, {0}, ?_, ?_, ?_, h0, hp, hc, ?_, ?_, _, measurable_atLeastOne, ?_⟩
  · intro c hc
    have : ∀ w : ℚ, 0 < w → (XStep.custom ⟨reusedParams w, some [0], fun r => r.2.1, fun r => r.2.2, [0]⟩ : XStep (ℕ × ℕ × ℚ) ℕ ℚ).Supported
        fun _ => countClass := by
      intro w hw
      refine ⟨by simp [Params.BoundsValid, reusedParams], hw, rfl, by simp, by simp, ?_, ?_⟩
      · intro o _ r hr
        simp only [countClass, List.mem_singleton] at hr
        subst hr
        exact one_pos
      · intro o _
        exact C74_example_count_is_private _ (l0 := 1) (linf := 1) rfl rfl (by norm_num) (by norm_num)
    simp only [reused, List.mem_cons, List.not_mem_nil, or_false] at hc
    rcases hc with rfl | rfl
    · exact this 1 (by norm_num)
    · exact this 2 (by norm_num)
  · intro c hc
    simp only [reused, List.mem_cons, List.not_mem_nil, or_false] at hc
    rcases hc with rfl | rfl <;> simp [XStep.NeedsDelta, countClass]
  · intro c hc
    simp only [reused, List.mem_cons, List.not_mem_nil, or_false] at hc
    rcases hc with rfl | rfl <;>
      exact ⟨⟨fun h => by simp [reusedParams] at h, fun h => by simp [reusedParams] at h⟩, fun h => by simp [reusedParams] at h⟩
  · have e1 := (hev 1).1
    have e2 := (hev 2).1
    simp only [reused, evalX, evalXStep, e1, e2]
  · rw [show ([(7, 0, 1)] : List (ℕ × ℕ × ℚ)).filter (fun r => r.1 ≠ 7) = [] from rfl]
    have e1 := (hev 1).2
    have e2 := (hev 2).2
    simp only [reused, evalX, evalXStep, e1, e2]
  · rw [reused_event, reused_event]
    have t1 := laplace_tail (b := 3 / 2) (t := 0) (by norm_num) le_rfl 1 1
    have t0 := laplace_tail (b := 3 / 2) (t := 1) (by norm_num) (by norm_num) 0 1
    rw [add_zero] at t1
    rw [zero_add] at t0
    rw [t0, t1, ← ENNReal.ofReal_pow (by positivity), ← ENNReal.ofReal_pow (by positivity), ← ENNReal.ofReal_mul (by positivity)]
    rw [ENNReal.ofReal_lt_ofReal_iff (by positivity)]
    rw [div_pow, div_pow, ← mul_div_assoc, ← Real.exp_nat_mul, ← Real.exp_add, neg_zero, zero_div, Real.exp_zero]
    apply div_lt_div_of_pos_right _ (by norm_num)
    rw [one_pow, Real.exp_lt_one_iff]
    norm_num

end PDP.EndToEnd
