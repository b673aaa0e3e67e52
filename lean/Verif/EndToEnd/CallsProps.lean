import Verif.EndToEnd.CallsBudget

/-!
# A whole pipeline with any calls is differentially private (C62)
-/

set_option linter.unusedSectionVars false

namespace PDP.EndToEnd

open PDP PDP.Engine MeasureTheory
open PDP.Engine.AddNoise (specOf)
open PDP.Budget (State Op MechType)
open PDP.Approx (Indist)

variable {R P K : Type} [DecidableEq P] [DecidableEq K]

/-! ### All calls -/

theorem empty_pair (lib : Library) : ∃ q : Pair lib ([] : List (Candidate K)) [], q.e = 0 ∧ q.d = 0 := by
  refine gate_pair le_rfl ⟨fun k => ?_, fun k => ?_, ?_, ?_⟩ (by simp) (by simp)
  · unfold decisionLaw; simp only [List.find?_nil]; infer_instance
  · unfold decisionLaw; simp only [List.find?_nil]; infer_instance
  · intro ι _ f _; exact Indist.refl _
  · intro ι _ f _; exact Indist.refl _

theorem calls_pairs {lib : Library} (hlib : lib.Contract) {s : Specs} {ε δ : ℕ → ℝ} {fmt : ℚ → String}
    (env : ℕ → Env K) (henv : ∀ j, (env j).Lawful) (pid : R → P) (data : List R) (u : P) {cs : List (Call R K)}
    (hs : ∀ c ∈ cs, c.Supported) (hu : ∀ c ∈ cs, c.Promised pid data u) :
    ∀ (j : ℕ) {rs : List Request} {bs ops}, planCalls fmt rs cs = .ok (bs, ops) →
      (∀ x ∈ cs.zip bs, BuiltOk s ε δ x.1.kind x.2) →
      ∃ L L', evalCalls lib.sigma s env pid data j cs bs = .ok L ∧
        evalCalls lib.sigma s env pid (removeId pid u data) j cs bs = .ok L' ∧
        L.length = cs.length ∧ L'.length = cs.length ∧
        ∃ p : ∀ j, Pair lib (L.getD j []) (L'.getD j []),
          ((List.range cs.length).map fun j => (p j).e).sum ≤ ((bs.flatMap Built.specs).map ε).sum ∧
          ((List.range cs.length).map fun j => (p j).d).sum ≤ ((bs.flatMap Built.specs).map δ).sum := by
  induction cs with
  | nil =>
    intro j rs bs ops h _
    simp only [planCalls, Except.ok.injEq, Prod.mk.injEq] at h
    obtain ⟨rfl, rfl⟩ := h
    obtain ⟨q, -, -⟩ := empty_pair (K := K) lib
    exact ⟨[], [], rfl, rfl, rfl, rfl, fun _ => q, by simp, by simp⟩
  | cons c cs ih =>
    intro j rs bs ops h hbo
    have hc := hs c (by simp)
    rcases hx : build fmt rs c with ⟨r, rs'⟩
    rw [planCalls, hx] at h
    rcases r with e | b
    · simp at h
    · dsimp only at h
      rcases hp : planCalls fmt rs' cs with e | ⟨bs', ops'⟩
      · rw [hp] at h; simp at h
      · rw [hp] at h
        simp only [Except.ok.injEq, Prod.mk.injEq] at h
        obtain ⟨rfl, rfl⟩ := h
        have hb : BuiltOk s ε δ c.kind b := hbo (c, b) (by simp)
        obtain ⟨x, x', h1, h2, q, hq1, hq2⟩ : ∃ x x', evalCall lib.sigma s (env j) pid b data c = .ok x ∧
            evalCall lib.sigma s (env j) pid b (removeId pid u data) c = .ok x' ∧
            ∃ q : Pair lib x x', q.e ≤ (b.specs.map ε).sum ∧ q.d ≤ (b.specs.map δ).sum := by
          cases c with
          | aggregate p pub key value =>
            exact aggregate_call hlib hc hx hb (env j) (henv j) pid data u (hu _ (by simp))
          | select p key => exact select_call hlib hc.1 hx hb (env j) (henv j) pid data u
        obtain ⟨L, L', g1, g2, g3, g4, p, g5, g6⟩ := ih (fun c hc => hs c (by simp [hc])) (fun c hc => hu c (by simp [hc]))
          (j + 1) hp (fun x hx => hbo x (by simp [hx]))
        let p' : ∀ j, Pair lib ((x :: L).getD j []) ((x' :: L').getD j []) := fun j =>
          match j with
          | 0 => q
          | j + 1 => p j
        refine ⟨x :: L, x' :: L', ?_, ?_, by simp [g3], by simp [g4], p', ?_, ?_⟩
        · simp only [evalCalls, h1, g1]
        · simp only [evalCalls, h2, g2]
        · rw [List.length_cons, List.range_succ_eq_map, List.map_cons, List.map_map, List.sum_cons, List.flatMap_cons,
            List.map_append, List.sum_append]
          exact add_le_add hq1 g5
        · rw [List.length_cons, List.range_succ_eq_map, List.map_cons, List.map_map, List.sum_cons, List.flatMap_cons,
            List.map_append, List.sum_append]
          exact add_le_add hq2 g6

/-- **C62.**  A pipeline of any `aggregate` and `select_partitions` calls on one naive accountant with total budget `(e, d)` is
`(e, d)`-differentially private, if PyDP keeps its promises: with public or private partitions or post-aggregation
thresholding, and with Laplace or Gaussian noise.  The random choices `ω` of contribution bounding and of the runner have any
distribution `μ`.  What is observed are the released partitions among any finite set `U` of (call, partition), with their
noisy numbers. -/
theorem C62_pipeline_is_differentially_private (fmt : ℚ → String) (lib : Library) (hlib : lib.Contract) {e d : ℚ} {num ws s0}
    (h0 : Budget.init e d num ws = .ok s0) (cs : List (Call R K)) (hs : ∀ c ∈ cs, c.Supported)
    (hd : (∃ c ∈ cs, c.NeedsDelta) → 0 < d) {bs ops} (hp : planCalls fmt [] cs = .ok (bs, ops))
    (hc : (Budget.step (Budget.run s0 ops).1 .compute).2 = .unit)
    {Ω : Type} [MeasurableSpace Ω] (μ : Measure Ω) [IsProbabilityMeasure μ] (env : Ω → ℕ → Env K)
    (henv : ∀ ω j, (env ω j).Lawful) (pid : R → P) (data : List R) (u : P) (hu : ∀ c ∈ cs, c.Promised pid data u) :
    let s := specOf (Budget.step (Budget.run s0 ops).1 .compute).1
    ∃ L L' : Ω → List (List (Candidate K)),
      (∀ ω, evalCalls lib.sigma s (env ω) pid data 0 cs bs = .ok (L ω) ∧
        evalCalls lib.sigma s (env ω) pid (removeId pid u data) 0 cs bs = .ok (L' ω)) ∧
      ∀ (U : Finset (ℕ × K)) (S : Finset (ℕ × ℕ)),
        (∀ ω, IsProbabilityMeasure (observedLaw lib U S (L ω)) ∧ IsProbabilityMeasure (observedLaw lib U S (L' ω))) ∧
        ∀ A, MeasurableSet A →
          ∫⁻ ω, observedLaw lib U S (L ω) A ∂μ
            ≤ ENNReal.ofReal (Real.exp e) * ∫⁻ ω, observedLaw lib U S (L' ω) A ∂μ + ENNReal.ofReal d ∧
          ∫⁻ ω, observedLaw lib U S (L' ω) A ∂μ
            ≤ ENNReal.ofReal (Real.exp e) * ∫⁻ ω, observedLaw lib U S (L ω) A ∂μ + ENNReal.ofReal d := by
  intro s
  obtain ⟨hplain, new, hreq, hspecs, hrq, hnd⟩ := planCalls_spec hs hp
  obtain ⟨ε, δ, hok, hε, hδ⟩ := budgets_published hplain hreq h0 (fun r hr hne => hd (hnd r hr hne)) hc
  have hbo : ∀ x ∈ cs.zip bs, BuiltOk s ε δ x.1.kind x.2 := by
    intro x hx
    have h := hrq x hx
    rw [List.nil_append] at h
    refine ⟨fun part hpart i hi => ?_, fun i hi => ?_, h.nodup⟩
    · obtain ⟨w, hw⟩ := h.parts part hpart i hi
      exact hok i _ hw
    · obtain ⟨w, hw⟩ := h.selection i hi
      exact hok i _ hw
  have key := fun ω => calls_pairs hlib (env ω) (henv ω) pid data u hs hu 0 hp hbo
  rw [List.length_nil] at hspecs
  rw [hspecs] at key
  choose L L' a1 a2 a3 a4 p a5 a6 using key
  refine ⟨L, L', fun ω => ⟨a1 ω, a2 ω⟩, fun U S => ⟨fun ω => ⟨?_, ?_⟩, fun A hA => ?_⟩⟩
  · exact observedLaw_prob (p ω) U S
  · exact observedLaw_prob (fun j => (p ω j).swap) U S
  · have fin : ∀ f g : Ω → ENNReal, (∀ ω, f ω ≤ ENNReal.ofReal (Real.exp e) * g ω + ENNReal.ofReal d) →
        ∫⁻ ω, f ω ∂μ ≤ ENNReal.ofReal (Real.exp e) * ∫⁻ ω, g ω ∂μ + ENNReal.ofReal d := by
      intro f g hfg
      refine (lintegral_mono hfg).trans ?_
      rw [lintegral_add_right _ measurable_const, lintegral_const_mul' _ _ ENNReal.ofReal_ne_top]
      simp
    have h1 : ∀ ω, ((List.range cs.length).map fun j => (p ω j).e).sum ≤ e := fun ω => (a5 ω).trans hε
    have h2 : ∀ ω, ((List.range cs.length).map fun j => (p ω j).d).sum ≤ d := fun ω => (a6 ω).trans hδ
    constructor
    · exact fin _ _ fun ω => ((observed_indist cs.length (p ω) (a3 ω) (a4 ω) U S).mono (h1 ω) (h2 ω)) A hA
    · exact fin _ _ fun ω => ((observed_indist cs.length (fun j => (p ω j).swap) (a4 ω) (a3 ω) U S).mono (h1 ω) (h2 ω)) A hA

end PDP.EndToEnd
