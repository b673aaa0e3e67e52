import Verif.Engine.Spec
import Verif.Budget.Model
import Mathlib.Analysis.SpecialFunctions.Exp
import Mathlib.Tactic.Linarith
import Mathlib.Tactic.Positivity
import Mathlib.Tactic.FieldSimp

/-!
# Sensitivities and additive mechanisms (`pipeline_dp/dp_computations.py:397-660, 774-838`)

PyDP's `LaplaceMechanism(epsilon, sensitivity)` has `diversity = sensitivity / epsilon` and PyDP's
`GaussianMechanism(epsilon, delta, sensitivity)` has a standard deviation computed by PyDP, here the parameter `sigma`.
-/

set_option linter.unusedVariables false
set_option linter.unusedSimpArgs false
set_option linter.unusedTactic false

namespace PDP.Engine.Mechanism

open PDP.Engine (Sens mkSens l1Sens l2Sens positiveOrNone NoiseKind Strategy)
open PDP.Budget (MechType)

/-! ### Model -/

/-- Exceptions: `ValueError`, or `AssertionError` because the budget was not computed. -/
inductive Err where
  | valueError
  | notComputed
deriving DecidableEq

/-- `MechanismSpec` (`budget_accounting.py:41-53`). -/
structure Spec where
  type : MechType
  std : Option ℝ := none
  eps : Option ℝ := none
  delta : Option ℝ := none

/-- The properties `noise_standard_deviation`, `eps`, `delta` (`budget_accounting.py:54-84`). -/
def computed (x : Option ℝ) : Except Err ℝ :=
  match x with
  | none => .error .notComputed
  | some v => .ok v

/-- `to_noise_kind` (`aggregate_params.py:99-109`). -/
def noiseKind : MechType → Except Err NoiseKind
  | .laplace => .ok .laplace
  | .gaussian => .ok .gaussian
  | .laplaceThresholding => .ok .laplace
  | .gaussianThresholding => .ok .gaussian
  | .generic => .error .valueError

/-- `to_partition_selection_strategy` (`aggregate_params.py:111-117`). -/
def toStrategy : MechType → Except Err Strategy
  | .laplaceThresholding => .ok .laplaceThresholding
  | .gaussianThresholding => .ok .gaussianThresholding
  | _ => .error .valueError

/-- `LaplaceMechanism` and `GaussianMechanism` (`dp_computations.py:430-537`). -/
inductive Additive where
  | laplace (diversity sensitivity : ℝ)
  | gaussian (std sensitivity : ℝ)

/-- `noise_parameter` (`dp_computations.py:460-461, 516-517`). -/
def Additive.parameter : Additive → ℝ
  | .laplace b _ => b
  | .gaussian s _ => s

/-- `std` (`dp_computations.py:464-465, 520-521`). -/
noncomputable def Additive.std : Additive → ℝ
  | .laplace b _ => b * Real.sqrt 2
  | .gaussian s _ => s

/-- `sensitivity` (`dp_computations.py:472-473, 524-525`). -/
def Additive.sensitivity : Additive → ℝ
  | .laplace _ s => s
  | .gaussian _ s => s

/-- `noise_kind` (`dp_computations.py:468-469, 512-513`). -/
def Additive.kind : Additive → NoiseKind
  | .laplace _ _ => .laplace
  | .gaussian _ _ => .gaussian

/-- PyDP's `LaplaceMechanism(epsilon, sensitivity)`. -/
noncomputable def pyLaplace (eps sens : ℝ) : Additive := .laplace (sens / eps) sens

/-- `LaplaceMechanism.create_from_epsilon` (`dp_computations.py:435-440`). -/
noncomputable def laplaceFromEpsilon (eps l1 : ℝ) : Additive := pyLaplace eps l1

/-- `LaplaceMechanism.create_from_std_deviation` (`dp_computations.py:442-454`). -/
noncomputable def laplaceFromStd (normalized l1 : ℝ) : Additive :=
  let b := normalized / Real.sqrt 2
  pyLaplace (1 / b) l1

/-- `GaussianMechanism.create_from_epsilon_delta` (`dp_computations.py:486-491`). -/
def gaussianFromEpsDelta (sigma : ℝ → ℝ → ℝ → ℝ) (eps delta l2 : ℝ) : Additive := .gaussian (sigma eps delta l2) l2

/-- `GaussianMechanism.create_from_std_deviation` (`dp_computations.py:493-506`). -/
def gaussianFromStd (normalized l2 : ℝ) : Additive :=
  let stddev := normalized * l2
  .gaussian stddev l2

/-- `create_additive_mechanism` (`dp_computations.py:621-646`). -/
noncomputable def createAdditive (sigma : ℝ → ℝ → ℝ → ℝ) (spec : Spec) (s : Sens) : Except Err Additive := do
  match ← noiseKind spec.type with
  | .laplace =>
    match s.l1 with
    | none => .error .valueError
    | some l1 =>
      if spec.std.isSome then
        let n ← computed spec.std
        return laplaceFromStd n l1
      else
        let e ← computed spec.eps
        return laplaceFromEpsilon e l1
  | .gaussian =>
    match s.l2 with
    | none => .error .valueError
    | some l2 =>
      if spec.std.isSome then
        let n ← computed spec.std
        return gaussianFromStd n l2
      else
        let e ← computed spec.eps
        let d ← computed spec.delta
        return gaussianFromEpsDelta sigma e d l2

/-- What `create_thresholding_mechanism` (`dp_computations.py:828-838`) hands to PyDP: strategy, epsilon, delta and L0
sensitivity (`None` if the sensitivities have none). -/
noncomputable def createThresholding (spec : Spec) (s : Sens) : Except Err (Strategy × ℝ × ℝ × Option ℝ) := do
  let st ← toStrategy spec.type
  let e ← computed spec.eps
  let d ← computed spec.delta
  return (st, e, d, s.l0)

/-! ### Specification -/

/-- The sensitivities which a user may declare: positive, L0 and Linf together, and L1, L2 consistent with them (up to
`10⁻¹²`). -/
structure Acceptable (l0 linf l1 l2 : Option ℝ) : Prop where
  pos : ∀ o ∈ [l0, linf, l1, l2], ∀ x, o = some x → 0 < x
  together : l0.isSome ↔ linf.isSome
  l1_close : ∀ a b x, l0 = some a → linf = some b → l1 = some x → |a * b - x| ≤ 1e-12
  l2_close : ∀ a b y, l0 = some a → linf = some b → l2 = some y → |Real.sqrt a * b - y| ≤ 1e-12

/-- Density of the Laplace distribution with mean 0 and scale `b`. -/
noncomputable def laplaceDensity (b t : ℝ) : ℝ := Real.exp (-|t| / b) / (2 * b)

/-! ### Properties -/

theorem positiveOrNone_iff (o : Option ℝ) : positiveOrNone o = true ↔ ∀ x, o = some x → 0 < x := by
  cases o <;> simp [positiveOrNone]

/-- **C58.** A declaration of sensitivities is accepted exactly when it is acceptable, and rejected with `ValueError`
otherwise. -/
theorem C58_accepted_iff (l0 linf l1 l2 : Option ℝ) :
    ((∃ s, mkSens l0 linf l1 l2 = .ok s) ↔ Acceptable l0 linf l1 l2) ∧
      (¬ Acceptable l0 linf l1 l2 → mkSens l0 linf l1 l2 = .error .valueError) := by
  have key : (Acceptable l0 linf l1 l2 → ∃ s, mkSens l0 linf l1 l2 = .ok s) ∧
      (¬ Acceptable l0 linf l1 l2 → mkSens l0 linf l1 l2 = .error .valueError) := by
    have hpos : (positiveOrNone l0 && positiveOrNone linf && positiveOrNone l1 && positiveOrNone l2) = true ↔
        ∀ o ∈ [l0, linf, l1, l2], ∀ x, o = some x → 0 < x := by
      simp only [Bool.and_eq_true, positiveOrNone_iff, List.forall_mem_cons, List.not_mem_nil, false_implies, implies_true,
        and_true, and_assoc]
    constructor
    · intro h
      unfold mkSens
      rw [if_pos (hpos.mpr h.pos)]
      have ht := h.together
      have h1 := h.l1_close
      have h2 := h.l2_close
      cases l0 <;> cases linf <;> simp at ht
      · exact ⟨_, rfl⟩
      · rename_i a b
        cases l1 <;> cases l2 <;> dsimp only <;> simp at h1 h2
        · exact ⟨_, rfl⟩
        · split
          · rename_i hh; exact absurd h2 (not_le.mpr hh)
          · exact ⟨_, rfl⟩
        · split
          · rename_i hh; exact absurd h1 (not_le.mpr hh)
          · exact ⟨_, rfl⟩
        · split
          · rename_i hh; exact absurd h1 (not_le.mpr hh)
          · split
            · rename_i hh; exact absurd h2 (not_le.mpr hh)
            · exact ⟨_, rfl⟩
    · intro h
      unfold mkSens
      by_cases hp : (positiveOrNone l0 && positiveOrNone linf && positiveOrNone l1 && positiveOrNone l2) = true
      · rw [if_pos hp]
        cases l0 <;> cases linf
        · exact absurd ⟨hpos.mp hp, by simp, by simp, by simp⟩ h
        · rfl
        · rfl
        · rename_i a b
          cases l1 <;> cases l2 <;> dsimp only
          · exact absurd ⟨hpos.mp hp, by simp, by simp, by simp⟩ h
          · split
            · rfl
            · rename_i hh; exact absurd ⟨hpos.mp hp, by simp, by simp, by simpa [l2Sens] using hh⟩ h
          · split
            · rfl
            · rename_i hh; exact absurd ⟨hpos.mp hp, by simp, by simpa [l1Sens] using hh, by simp⟩ h
          · split
            · rfl
            · rename_i hh
              split
              · rfl
              · rename_i hh'; exact absurd ⟨hpos.mp hp, by simp, by simpa [l1Sens] using hh, by simpa [l2Sens] using hh'⟩ h
      · rw [if_neg hp]
  refine ⟨⟨fun ⟨s, hs⟩ => ?_, key.1⟩, key.2⟩
  by_contra h
  rw [key.2 h] at hs
  cases hs

/-- **C58.** An accepted declaration keeps the values which were given, derives `L1 = L0 · Linf` and `L2 = √L0 · Linf` where
they were not, and all values of the result are positive. -/
theorem C58_derived (l0 linf l1 l2 : Option ℝ) (s : Sens) (h : mkSens l0 linf l1 l2 = .ok s) :
    s.l0 = l0 ∧ s.linf = linf ∧ (l1.isSome → s.l1 = l1) ∧ (l2.isSome → s.l2 = l2) ∧
      (l1 = none → s.l1 = (do return (← l0) * (← linf))) ∧ (l2 = none → s.l2 = (do return Real.sqrt (← l0) * (← linf))) ∧
      ∀ o ∈ [s.l0, s.linf, s.l1, s.l2], ∀ x, o = some x → 0 < x := by
  have hacc := (C58_accepted_iff l0 linf l1 l2).1.mp ⟨s, h⟩
  have hp := hacc.pos
  simp only [List.forall_mem_cons, List.not_mem_nil, false_implies, implies_true, and_true] at hp ⊢
  obtain ⟨p0, pi, p1, p2⟩ := hp
  unfold mkSens at h
  split at h
  · rcases l0 with _ | a <;> rcases linf with _ | b <;> simp only at h
    · cases h; exact ⟨rfl, rfl, fun _ => rfl, fun _ => rfl, fun e => by simp [e], fun e => by simp [e], p0, pi, p1, p2⟩
    · cases h
    · cases h
    · have ha := p0 a rfl
      have hb := pi b rfl
      have hab : 0 < a * b := mul_pos ha hb
      have hsb : 0 < Real.sqrt a * b := mul_pos (Real.sqrt_pos.mpr ha) hb
      cases l1 <;> cases l2 <;> simp only at h
      · cases h; simp [l1Sens, l2Sens, ha, hb, Real.sqrt_pos.mpr ha, mul_pos]
      · split at h
        · cases h
        · cases h; simp [l1Sens, l2Sens, ha, hb, Real.sqrt_pos.mpr ha, p2 _ rfl, mul_pos]
      · split at h
        · cases h
        · cases h; simp [l1Sens, l2Sens, ha, hb, Real.sqrt_pos.mpr ha, p1 _ rfl, mul_pos]
      · split at h
        · cases h
        · split at h
          · cases h
          · cases h; simp [l1Sens, l2Sens, ha, hb, p1 _ rfl, p2 _ rfl]
  · cases h

example : Acceptable (some 4) (some 3) (some 12) none := by
  refine ⟨?_, by simp, ?_, by simp⟩
  · simp
  · intro a b x ha hb hx
    simp at ha hb hx; subst ha hb hx; norm_num

/-- **C58.** The Laplace mechanism with budget epsilon has scale `L1 / epsilon`, the Gaussian one is PyDP's for
(epsilon, delta, L2); with a noise deviation given by the accountant (which is per unit of sensitivity), both have this
deviation times the sensitivity.  The sensitivity which is reported is the one which was used. -/
theorem C58_calibrated (sigma : ℝ → ℝ → ℝ → ℝ) (spec : Spec) (s : Sens) (m : Additive)
    (h : createAdditive sigma spec s = .ok m) :
    (m.kind = .laplace → s.l1 = some m.sensitivity) ∧ (m.kind = .gaussian → s.l2 = some m.sensitivity) ∧
    (m.kind = .laplace ↔ spec.type = .laplace ∨ spec.type = .laplaceThresholding) ∧
    (∀ n, spec.std = some n → m.std = n * m.sensitivity) ∧
    (spec.std = none → ∃ e, spec.eps = some e ∧
      (m.kind = .laplace → m.parameter = m.sensitivity / e) ∧
      (m.kind = .gaussian → ∃ d, spec.delta = some d ∧ m.parameter = sigma e d m.sensitivity)) := by
  have hl : ∀ n l : ℝ, l / (Real.sqrt 2 / n) * Real.sqrt 2 = n * l := by
    intro n l
    have : Real.sqrt 2 ≠ 0 := by positivity
    field_simp
  obtain ⟨type, std, eps, delta⟩ := spec
  obtain ⟨s0, si, s1, s2⟩ := s
  cases type <;> simp only [createAdditive, noiseKind, bind, Except.bind] at h
  all_goals first
    | (cases h; done)
    | (cases s1 <;> cases s2 <;> simp only at h <;> cases std <;> cases eps <;> cases delta <;>
        simp [computed, pure, Except.pure] at h <;> subst h <;>
        simp [laplaceFromStd, laplaceFromEpsilon, gaussianFromStd, gaussianFromEpsDelta, pyLaplace, Additive.kind,
          Additive.sensitivity, Additive.parameter] <;> simp [Additive.std, hl])

/-- **C58.** Building the mechanism fails with `ValueError` exactly for a generic mechanism type or if the sensitivity of the
noise is not declared. -/
theorem C58_missing (sigma : ℝ → ℝ → ℝ → ℝ) (spec : Spec) (s : Sens) :
    createAdditive sigma spec s = .error .valueError ↔
      spec.type = .generic ∨
      ((spec.type = .laplace ∨ spec.type = .laplaceThresholding) ∧ s.l1 = none) ∨
      ((spec.type = .gaussian ∨ spec.type = .gaussianThresholding) ∧ s.l2 = none) := by
  obtain ⟨type, std, eps, delta⟩ := spec
  obtain ⟨s0, si, s1, s2⟩ := s
  cases type <;> simp only [createAdditive, noiseKind, bind, Except.bind]
  all_goals
    cases s1 <;> cases s2 <;> simp <;> cases std <;> cases eps <;> cases delta <;>
        simp [computed, pure, Except.pure]

/-- **C58, gap.** The consistency check has an absolute tolerance, so for small sensitivities it checks nothing: for every
factor there is an accepted declaration whose L1 sensitivity (and so the Laplace noise) is smaller than `L0 · Linf` by this
factor. -/
theorem C58_absolute_tolerance (c : ℝ) (hc : 0 < c) (hc1 : c < 1) :
    ∃ (l0 linf l1 : ℝ) (s : Sens), mkSens (some l0) (some linf) (some l1) none = .ok s ∧ s.l1 = some l1 ∧
      l1 ≤ c * (l0 * linf) := by
  have hacc : Acceptable (some 1) (some 1e-12) (some (c * 1e-12)) none := by
    refine ⟨?_, by simp, ?_, by simp⟩
    · simp; constructor
      · norm_num
      · exact mul_pos hc (by norm_num)
    · intro a b x ha hb hx
      simp at ha hb hx
      subst ha hb hx
      rw [abs_le]; constructor <;> nlinarith
  obtain ⟨s, hs⟩ := (C58_accepted_iff _ _ _ _).1.mpr hacc
  exact ⟨1, 1e-12, c * 1e-12, s, hs, (C58_derived _ _ _ _ s hs).2.2.1 rfl, by norm_num⟩

/-- **C58.** Laplace noise calibrated by `create_additive_mechanism` is enough for pure differential privacy: if the declared
sensitivities cover the change `Δ` caused by one privacy id, the joint density of the noisy values of any partitions changes
by a factor of at most `exp(epsilon)`. -/
theorem C58_laplace_privacy_loss {K : Type} [DecidableEq K] (sigma : ℝ → ℝ → ℝ → ℝ) (eps : ℝ) (heps : 0 < eps) (s : Sens)
    (hs1 : ∀ x, s.l1 = some x → 0 < x)
    (Δ : K → ℚ) (hΔ : s.Covers Δ) (spec : Spec) (hspec : spec.type = .laplace) (hstd : spec.std = none)
    (he : spec.eps = some eps) :
    ∃ m, createAdditive sigma spec s = .ok m ∧
      ∀ (ks : List K), ks.Nodup → ∀ exact output : K → ℝ,
        (ks.map fun k => laplaceDensity m.parameter (output k - exact k)).prod
          ≤ Real.exp eps * (ks.map fun k => laplaceDensity m.parameter (output k - (exact k + Δ k))).prod := by
  obtain ⟨x, hx, hsum⟩ := hΔ.l1
  have hxp := hs1 x hx
  obtain ⟨type, std, e, delta⟩ := spec
  obtain ⟨s0, si, s1, s2⟩ := s
  simp only at hspec hstd he hx
  subst hspec hstd he hx
  refine ⟨.laplace (x / eps) x, rfl, ?_⟩
  intro ks hks exact output
  show (ks.map fun k => laplaceDensity (x / eps) _).prod ≤ _ * (ks.map fun k => laplaceDensity (x / eps) _).prod
  have hb : 0 < x / eps := div_pos hxp heps
  have main : ∀ l : List K,
      (l.map fun k => laplaceDensity (x / eps) (output k - exact k)).prod
        ≤ Real.exp (((l.map fun k => |Δ k|).sum : ℚ) / (x / eps))
          * (l.map fun k => laplaceDensity (x / eps) (output k - (exact k + Δ k))).prod := by
    intro l
    induction l with
    | nil => simp
    | cons k l ih =>
      simp only [List.map_cons, List.prod_cons, List.sum_cons]
      have h1 : laplaceDensity (x / eps) (output k - exact k)
          ≤ Real.exp (|((Δ k : ℚ) : ℝ)| / (x / eps)) * laplaceDensity (x / eps) (output k - (exact k + Δ k)) := by
        unfold laplaceDensity
        generalize x / eps = b at hb
        rw [← mul_div_assoc, ← Real.exp_add]
        apply div_le_div_of_nonneg_right _ (by positivity)
        apply Real.exp_le_exp.mpr
        rw [← add_div]
        apply div_le_div_of_nonneg_right _ hb.le
        have := abs_add_le (output k - exact k) (-(Δ k : ℝ))
        rw [abs_neg] at this
        have h2 : output k - (exact k + Δ k) = output k - exact k + -(Δ k : ℝ) := by ring
        rw [h2]; linarith
      have hnn : 0 ≤ (l.map fun k => laplaceDensity (x / eps) (output k - exact k)).prod := by
        apply List.prod_nonneg
        intro y hy
        obtain ⟨k, _, rfl⟩ := List.mem_map.mp hy
        unfold laplaceDensity; positivity
      have hnn' : 0 ≤ laplaceDensity (x / eps) (output k - (exact k + Δ k)) := by
        unfold laplaceDensity; positivity
      calc _ ≤ _ := mul_le_mul h1 ih hnn (mul_nonneg (Real.exp_pos _).le hnn')
        _ = _ := by
          have e : ((|Δ k| + (l.map fun k => |Δ k|).sum : ℚ) : ℝ) / (x / eps)
              = |((Δ k : ℚ) : ℝ)| / (x / eps) + ((l.map fun k => |Δ k|).sum : ℚ) / (x / eps) := by
            rw [Rat.cast_add, Rat.cast_abs, add_div]
          rw [e, Real.exp_add]; ring
  refine (main ks).trans ?_
  apply mul_le_mul_of_nonneg_right
  · apply Real.exp_le_exp.mpr
    rw [div_le_iff₀ hb]
    have := hsum ks hks
    calc _ ≤ x := this
      _ = _ := by field_simp
  · apply List.prod_nonneg
    intro y hy
    obtain ⟨k, _, rfl⟩ := List.mem_map.mp hy
    unfold laplaceDensity; positivity

/-- One user changes two counts by 1 each; the declaration L0 = 2, Linf = 1 covers it. -/
example : Sens.Covers ⟨some 2, some 1, some 2, some (Real.sqrt 2)⟩ (fun k : Fin 2 => (1 : ℚ)) := by
  have hl : ∀ ks : List (Fin 2), ks.Nodup → ks.length ≤ 2 := fun ks h => by simpa using h.length_le_card
  refine ⟨?_, ?_, ⟨2, rfl, ?_⟩, ⟨_, rfl, ?_⟩⟩
  · intro x hx ks hks
    simp at hx; subst hx
    exact_mod_cast (List.length_filter_le _ _).trans (hl ks hks)
  · intro x hx k; simp at hx; subst hx; simp
  · intro ks hks
    simpa using hl ks hks
  · intro ks hks
    apply Real.sqrt_le_sqrt
    simpa using hl ks hks

/-- **C58.** A thresholding mechanism is built exactly for the two thresholding types with a computed budget; it gets the
epsilon and delta of the specification and the declared L0 sensitivity. -/
theorem C58_thresholding (spec : Spec) (s : Sens) (r : Strategy × ℝ × ℝ × Option ℝ) :
    createThresholding spec s = .ok r ↔
      ((spec.type = .laplaceThresholding ∧ r.1 = .laplaceThresholding) ∨
        (spec.type = .gaussianThresholding ∧ r.1 = .gaussianThresholding)) ∧
      spec.eps = some r.2.1 ∧ spec.delta = some r.2.2.1 ∧ r.2.2.2 = s.l0 := by
  obtain ⟨type, std, eps, delta⟩ := spec
  obtain ⟨st, e, d, l⟩ := r
  cases type <;> cases eps <;> cases delta <;>
    simp [createThresholding, toStrategy, computed, bind, Except.bind, pure, Except.pure]
  all_goals constructor
  all_goals
    rintro ⟨h1, h2, h3, h4⟩
    exact ⟨h1.symm, h2, h3, h4.symm⟩

end PDP.Engine.Mechanism
