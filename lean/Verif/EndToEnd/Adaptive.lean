import Verif.EndToEnd.CallsProps

/-!
# Pipelines whose later calls use the partitions that earlier calls released (C68)

The result of `select_partitions` (or of `aggregate`) is a collection, and a collection of partition keys can be given as
`public_partitions` to a later `aggregate` (`dp_engine.py:65-107`, `public_partitions: A collection of partition keys`).
The graph is built for all calls before anything is computed, so the budgets do not depend on what is released.
-/

namespace PDP.EndToEnd

open PDP PDP.Engine MeasureTheory
open PDP.Engine.AddNoise (specOf)
open PDP.Budget (State Op MechType)
open PDP.Approx (Indist)

variable {R P K : Type} [DecidableEq P] [DecidableEq K]

/-! ### Programs -/

/-- A pipeline in rounds.  The calls of a round see the partitions that the rounds before released, as pairs (position of the
call in its round, partition).  On Beam and Spark such a collection of keys is passed on unevaluated; on the local backend it is
an iterator that has to be copied to be read more than once (C38). -/
inductive Program (R K : Type) : ℕ → Type where
  | done : Program R K 0
  | round {n : ℕ} (calls : List (Call R K)) (next : Finset (ℕ × K) → Program R K n) : Program R K (n + 1)

/-- The calls of the rounds, if `released` are the partitions released by the rounds. -/
def Program.path {n : ℕ} : Program R K n → (released : ℕ → Finset (ℕ × K)) → List (List (Call R K))
  | .done, _ => []
  | .round cs next, t => cs :: (next (t 0)).path fun i => t (i + 1)

/-- Every call of the program, whatever is released, has the property `q`. -/
def Program.All (q : Call R K → Prop) {n : ℕ} (prog : Program R K n) : Prop :=
  ∀ t, ∀ cs ∈ prog.path t, ∀ c ∈ cs, q c

/-- The graph is built before anything is released: for all outcomes the calls build the same combiners, make the same calls
`ops` on the accountant, and there are as many calls in each round.  (The partitions themselves are not looked at.) -/
def Program.Planned (fmt : ℚ → String) {n : ℕ} (prog : Program R K n) (rounds : List (List Built)) (ops : List Op) : Prop :=
  ∀ t, planCalls fmt [] (prog.path t).flatten = .ok (rounds.flatten, ops) ∧
    (prog.path t).map List.length = rounds.map List.length

/-! ### What is observed -/

/-- What is observed in a round, as in C62. -/
abbrev Seen (U : Finset (ℕ × K)) (S : Finset (ℕ × ℕ)) : Type := (U → Bool × ℝ) × (U × S → ℝ)

/-- The partitions released in a round. -/
def releasedSet {U : Finset (ℕ × K)} {S : Finset (ℕ × ℕ)} (x : Seen U S) : Finset U :=
  Finset.univ.filter fun u => (x.1 u).1 = true

/-- What is observed in `n` rounds. -/
def Trace (U : Finset (ℕ × K)) (S : Finset (ℕ × ℕ)) : ℕ → Type
  | 0 => Unit
  | n + 1 => Seen U S × Trace U S n

instance Trace.measurableSpace (U : Finset (ℕ × K)) (S : Finset (ℕ × ℕ)) : ∀ n, MeasurableSpace (Trace U S n)
  | 0 => (inferInstance : MeasurableSpace Unit)
  | n + 1 => @Prod.instMeasurableSpace _ _ _ (Trace.measurableSpace U S n)

/-- First `x` is drawn from `law`, then `y` from `next t` for the `t` with `f x = t`. -/
noncomputable def thenLaw {X Y T : Type} [MeasurableSpace X] [MeasurableSpace Y] [Fintype T] (law : Measure X) (f : X → T)
    (next : T → Measure Y) : Measure (X × Y) :=
  ∑ t, (law.restrict {x | f x = t}).prod (next t)

/-- The candidates of the calls of a round, or none if the evaluation raises. -/
def orNone (x : Except Err (List (List (Candidate K)))) : List (List (Candidate K)) :=
  match x with
  | .ok L => L
  | .error _ => []

/-- Distribution of what a program releases: the calls of a round are evaluated for the partitions released before.  `env` are
the random choices of contribution bounding and of the runner in each round, given what was released before (`before`, last
first). -/
noncomputable def programLaw (lib : Library) (s : Specs) (env : List (Finset (ℕ × K)) → ℕ → Env K) (pid : R → P)
    (data : List R) (U : Finset (ℕ × K)) (S : Finset (ℕ × ℕ)) : {n : ℕ} → Program R K n → (before : List (Finset (ℕ × K))) →
    List (List Built) → Measure (Trace U S n)
  | _, .done, _, _ => (Measure.dirac () : Measure Unit)
  | _, .round (n := n) cs next, before, rounds =>
    thenLaw (Y := Trace U S n)
      (observedLaw lib U S (orNone (evalCalls lib.sigma s (env before) pid data 0 cs (rounds.headD []))))
      releasedSet
      fun t => programLaw lib s env pid data U S (next (t.map (Function.Embedding.subtype _)))
        (t.map (Function.Embedding.subtype _) :: before) rounds.tail

/-- No call raises, whatever is released. -/
def Program.Evaluates (sigma : ℝ → ℝ → ℝ → ℝ) (s : Specs) (env : List (Finset (ℕ × K)) → ℕ → Env K) (pid : R → P)
    (data : List R) : {n : ℕ} → Program R K n → (before : List (Finset (ℕ × K))) → List (List Built) → Prop
  | _, .done, _, _ => True
  | _, .round cs next, before, rounds =>
    (∃ L, evalCalls sigma s (env before) pid data 0 cs (rounds.headD []) = .ok L) ∧
      ∀ t, (next t).Evaluates sigma s env pid data (t :: before) rounds.tail

/-! ### Adaptive composition -/

theorem measurableSet_released {U : Finset (ℕ × K)} {S : Finset (ℕ × ℕ)} (t : Finset U) :
    MeasurableSet {x : Seen U S | releasedSet x = t} := by
  have : {x : Seen U S | releasedSet x = t} = ⋂ u : U, {x : Seen U S | (x.1 u).1 = decide (u ∈ t)} := by
    ext x
    simp only [Set.mem_ofPred_eq, Set.mem_iInter, releasedSet, Finset.ext_iff, Finset.mem_filter, Finset.mem_univ, true_and]
    refine forall_congr' fun u => ?_
    by_cases h : u ∈ t <;> simp [h]
  rw [this]
  refine MeasurableSet.iInter fun u => ?_
  have hm : Measurable fun x : Seen U S => (x.1 u).1 := ((measurable_pi_apply u).comp measurable_fst).fst
  exact hm (measurableSet_singleton (decide (u ∈ t)))

section
variable {X Y T : Type} [MeasurableSpace X] [MeasurableSpace Y] [Fintype T]

theorem thenLaw_apply (law : Measure X) {f : X → T} (hf : ∀ t, MeasurableSet {x | f x = t}) (next : T → Measure Y)
    [∀ t, SFinite (next t)] {A : Set (X × Y)} (hA : MeasurableSet A) :
    thenLaw law f next A = ∫⁻ x, next (f x) (Prod.mk x ⁻¹' A) ∂law := by
  classical
  have hm : ∀ t, Measurable fun x => next t (Prod.mk x ⁻¹' A) := fun t => measurable_measure_prodMk_left hA
  have hsum : ∀ x, next (f x) (Prod.mk x ⁻¹' A)
      = ∑ t, ({x | f x = t} : Set X).indicator (fun x => next t (Prod.mk x ⁻¹' A)) x := by
    intro x
    rw [Finset.sum_eq_single (f x)]
    · simp
    · intro t _ ht
      rw [Set.indicator_of_notMem]
      exact fun h => ht h.symm
    · simp
  simp only [hsum]
  rw [lintegral_finsetSum _ fun t _ => (hm t).indicator (hf t), thenLaw, Measure.finsetSum_apply]
  refine Finset.sum_congr rfl fun t _ => ?_
  rw [Measure.prod_apply hA, lintegral_indicator (hf t)]

theorem thenLaw_prob (law : Measure X) [IsProbabilityMeasure law] {f : X → T} (hf : ∀ t, MeasurableSet {x | f x = t})
    (next : T → Measure Y) [∀ t, IsProbabilityMeasure (next t)] : IsProbabilityMeasure (thenLaw law f next) := by
  constructor
  rw [thenLaw_apply law hf next MeasurableSet.univ]
  simp

/-- Adaptive composition. -/
theorem thenLaw_indist {e₁ d₁ e₂ d₂ : ℝ} {μ ν : Measure X} [IsProbabilityMeasure μ] {f : X → T}
    (hf : ∀ t, MeasurableSet {x | f x = t}) {μ' ν' : T → Measure Y} [∀ t, IsProbabilityMeasure (μ' t)]
    [∀ t, IsProbabilityMeasure (ν' t)] (h₁ : Indist e₁ d₁ μ ν) (h₂ : ∀ t, Indist e₂ d₂ (μ' t) (ν' t)) (hd₁ : 0 ≤ d₁)
    (hd₂ : 0 ≤ d₂) : Indist (e₁ + e₂) (d₁ + d₂) (thenLaw μ f μ') (thenLaw ν f ν') := by
  classical
  intro A hA
  rw [thenLaw_apply μ hf μ' hA, thenLaw_apply ν hf ν' hA]
  set E₁ := ENNReal.ofReal (Real.exp e₁)
  set E₂ := ENNReal.ofReal (Real.exp e₂)
  have hm : ∀ t, Measurable fun x => ν' t (Prod.mk x ⁻¹' A) := fun t => measurable_measure_prodMk_left hA
  have hms : Measurable fun x => ν' (f x) (Prod.mk x ⁻¹' A) := by
    have hsum : (fun x => ν' (f x) (Prod.mk x ⁻¹' A))
        = fun x => ∑ t, ({x | f x = t} : Set X).indicator (fun x => ν' t (Prod.mk x ⁻¹' A)) x := by
      funext x
      rw [Finset.sum_eq_single (f x)]
      · simp
      · intro t _ ht
        rw [Set.indicator_of_notMem]
        exact fun h => ht h.symm
      · simp
    rw [hsum]
    exact Finset.measurable_fun_sum _ fun t _ => (hm t).indicator (hf t)
  have hmm : Measurable fun x => min 1 (E₂ * ν' (f x) (Prod.mk x ⁻¹' A)) := measurable_const.min (hms.const_mul _)
  have step : ∀ x, μ' (f x) (Prod.mk x ⁻¹' A) ≤ min 1 (E₂ * ν' (f x) (Prod.mk x ⁻¹' A)) + ENNReal.ofReal d₂ := by
    intro x
    have a1 := h₂ (f x) _ (measurable_prodMk_left (x := x) hA)
    have a2 : μ' (f x) (Prod.mk x ⁻¹' A) ≤ 1 := prob_le_one
    rcases le_total 1 (E₂ * ν' (f x) (Prod.mk x ⁻¹' A)) with h | h
    · rw [min_eq_left h]; exact a2.trans le_self_add
    · rw [min_eq_right h]; exact a1
  calc ∫⁻ x, μ' (f x) (Prod.mk x ⁻¹' A) ∂μ
      ≤ ∫⁻ x, (min 1 (E₂ * ν' (f x) (Prod.mk x ⁻¹' A)) + ENNReal.ofReal d₂) ∂μ := lintegral_mono step
    _ = ∫⁻ x, min 1 (E₂ * ν' (f x) (Prod.mk x ⁻¹' A)) ∂μ + ENNReal.ofReal d₂ := by
        rw [lintegral_add_right _ measurable_const]; simp
    _ ≤ E₁ * ∫⁻ x, min 1 (E₂ * ν' (f x) (Prod.mk x ⁻¹' A)) ∂ν + ENNReal.ofReal d₁ + ENNReal.ofReal d₂ := by
        gcongr
        exact h₁.lintegral hmm fun x => min_le_left _ _
    _ ≤ E₁ * ∫⁻ x, E₂ * ν' (f x) (Prod.mk x ⁻¹' A) ∂ν + ENNReal.ofReal d₁ + ENNReal.ofReal d₂ := by
        gcongr
        exact min_le_right _ _
    _ = ENNReal.ofReal (Real.exp (e₁ + e₂)) * ∫⁻ x, ν' (f x) (Prod.mk x ⁻¹' A) ∂ν + ENNReal.ofReal (d₁ + d₂) := by
        rw [lintegral_const_mul _ hms, ← mul_assoc, ← ENNReal.ofReal_mul (Real.exp_nonneg _), ← Real.exp_add,
          ENNReal.ofReal_add hd₁ hd₂, add_assoc]
end

end PDP.EndToEnd
