import Mathlib.Analysis.SpecialFunctions.Exp
import Mathlib.Algebra.BigOperators.Ring.List
import Mathlib.Algebra.Order.BigOperators.Group.List
import Mathlib.Tactic.Linarith
import Mathlib.Tactic.Positivity
import Mathlib.Tactic.FieldSimp
import Mathlib.Tactic.NormNum
import Verif.Engine.Params

/-!
# Property C29: the exponential mechanism

Model of `dp_computations.py:661-715` `ExponentialMechanism` over the reals; `np.random.choice` with given
probabilities is represented by the distribution it samples from.
-/

set_option linter.unusedVariables false

namespace PDP.PrivateBounds

open PDP.Engine (Err)

/-- A scoring function (`dp_computations.py:670-693`): its score, global sensitivity and `is_monotonic`. -/
structure Scoring (α : Type) where
  score : α → ℝ
  sensitivity : ℝ
  monotonic : Bool

/-- The denominator of the exponent (`dp_computations.py:711-713`). -/
noncomputable def Scoring.denominator {α : Type} (f : Scoring α) : ℝ :=
  if f.monotonic then f.sensitivity else f.sensitivity * 2

/-- The weights (`dp_computations.py:709-714`); `expf` is `np.exp`. -/
noncomputable def weights {α : Type} (expf : ℝ → ℝ) (f : Scoring α) (eps : ℝ) (inputs : List α) : List ℝ :=
  inputs.map fun k => expf (f.score k * eps / f.denominator)

/-- `dp_computations.py:707-715` `_calculate_probabilities`; dividing zeros by a zero sum gives NaNs, on which
`choice` raises `ValueError`. -/
noncomputable def probabilities {α : Type} (expf : ℝ → ℝ) (f : Scoring α) (eps : ℝ) (inputs : List α) :
    Except Err (List ℝ) :=
  let w := weights expf f eps inputs
  if w.sum = 0 then .error .valueError else .ok (w.map fun x => x / w.sum)

/-- `dp_computations.py:698-705` `apply`: the probability that the chosen input satisfies `event`. -/
def chosen {α : Type} (inputs : List α) (probs : List ℝ) (event : α → Bool) : ℝ :=
  (((inputs.zip probs).filter fun e => event e.1).map Prod.snd).sum

/-! ### Lemmas -/

theorem sum_pos_exp {α : Type} (g : α → ℝ) (l : List α) (hne : l ≠ []) : 0 < (l.map fun k => Real.exp (g k)).sum := by
  obtain ⟨a, l, rfl⟩ := List.exists_cons_of_ne_nil hne
  rw [List.map_cons, List.sum_cons]
  have h1 := Real.exp_pos (g a)
  have h2 : 0 ≤ (l.map fun k => Real.exp (g k)).sum := by
    apply List.sum_nonneg
    intro x hx
    obtain ⟨k, -, rfl⟩ := List.mem_map.mp hx
    exact (Real.exp_pos _).le
  linarith

theorem sum_le_factor {α : Type} (f g : α → ℝ) (c : ℝ) (l : List α) (h : ∀ k ∈ l, f k ≤ c * g k) :
    (l.map f).sum ≤ c * (l.map g).sum := by
  rw [← List.sum_map_mul_left]
  exact List.sum_le_sum h

theorem probabilities_ok {α : Type} (f : Scoring α) (eps : ℝ) (inputs : List α) (hne : inputs ≠ []) :
    probabilities Real.exp f eps inputs
      = .ok (inputs.map fun k => Real.exp (f.score k * eps / f.denominator) /
          (inputs.map fun k => Real.exp (f.score k * eps / f.denominator)).sum) := by
  unfold probabilities weights
  simp only
  rw [if_neg (sum_pos_exp _ inputs hne).ne', List.map_map]
  rfl

theorem chosen_map {α : Type} (inputs : List α) (g : α → ℝ) (event : α → Bool) :
    chosen inputs (inputs.map g) event = ((inputs.filter event).map g).sum := by
  unfold chosen
  congr 1
  induction inputs with
  | nil => rfl
  | cons a l ih =>
    simp only [List.map_cons, List.zip_cons_cons, List.filter_cons]
    by_cases h : event a <;> simp [h, ih]

/-- Exponents of neighbouring scores. -/
structure Neighbouring {α : Type} (f g : Scoring α) (inputs : List α) : Prop where
  sens : f.sensitivity = g.sensitivity
  mono : f.monotonic = g.monotonic
  pos : 0 < f.sensitivity
  close : ∀ k ∈ inputs, |f.score k - g.score k| ≤ f.sensitivity
  direction : f.monotonic = true → (∀ k ∈ inputs, f.score k ≤ g.score k) ∨ (∀ k ∈ inputs, g.score k ≤ f.score k)

theorem Neighbouring.symm {α : Type} {f g : Scoring α} {inputs : List α} (h : Neighbouring f g inputs) :
    Neighbouring g f inputs where
  sens := h.sens.symm
  mono := h.mono.symm
  pos := by rw [← h.sens]; exact h.pos
  close := fun k hk => by rw [← h.sens, abs_sub_comm]; exact h.close k hk
  direction := fun hm => by
    rcases h.direction (h.mono.trans hm) with h1 | h1
    · exact Or.inr h1
    · exact Or.inl h1

/-- The ratio of probabilities of one input. -/
theorem ratio_bound {α : Type} (f g : Scoring α) (eps : ℝ) (heps : 0 ≤ eps) (inputs : List α) (h : Neighbouring f g inputs)
    (k : α) (hk : k ∈ inputs) :
    Real.exp (f.score k * eps / f.denominator) / (inputs.map fun k => Real.exp (f.score k * eps / f.denominator)).sum ≤
      Real.exp eps * (Real.exp (g.score k * eps / g.denominator) /
        (inputs.map fun k => Real.exp (g.score k * eps / g.denominator)).sum) := by
  have hne : inputs ≠ [] := List.ne_nil_of_mem hk
  set F : α → ℝ := fun k => Real.exp (f.score k * eps / f.denominator) with hF
  set G : α → ℝ := fun k => Real.exp (g.score k * eps / g.denominator) with hG
  have hSF : 0 < (inputs.map F).sum := sum_pos_exp _ inputs hne
  have hSG : 0 < (inputs.map G).sum := sum_pos_exp _ inputs hne
  have hΔ := h.pos
  -- factors for the numerator and the denominator with product e^eps
  obtain ⟨a, b, hab, hnum, hden⟩ : ∃ a b : ℝ, a + b = eps ∧ (∀ k ∈ inputs, F k ≤ Real.exp a * G k) ∧
      (∀ k ∈ inputs, G k ≤ Real.exp b * F k) := by
    have hd : g.denominator = f.denominator := by unfold Scoring.denominator; rw [h.mono, h.sens]
    have expo : ∀ x y c d : ℝ, 0 < d → x - y ≤ c → Real.exp (x * eps / d) ≤ Real.exp (c * eps / d) * Real.exp (y * eps / d) := by
      intro x y c d hd hxy
      rw [← Real.exp_add, Real.exp_le_exp, ← add_div]
      apply div_le_div_of_nonneg_right _ hd.le
      nlinarith
    cases hm : f.monotonic with
    | true =>
      have hdf : f.denominator = f.sensitivity := by unfold Scoring.denominator; rw [hm]; rfl
      rcases h.direction hm with hdir | hdir
      · refine ⟨0, eps, by ring, ?_, ?_⟩
        · intro k hk
          have := expo (f.score k) (g.score k) 0 f.denominator (by rw [hdf]; exact hΔ) (by linarith [hdir k hk])
          simp only [hF, hG, hd]
          simpa using this
        · intro k hk
          have := expo (g.score k) (f.score k) f.sensitivity f.denominator (by rw [hdf]; exact hΔ)
            (by linarith [(abs_le.mp (h.close k hk)).1])
          simp only [hF, hG, hd]
          rw [show eps = f.sensitivity * eps / f.denominator by rw [hdf]; field_simp]
          convert this using 3 <;> (rw [hdf]; field_simp)
      · refine ⟨eps, 0, by ring, ?_, ?_⟩
        · intro k hk
          have := expo (f.score k) (g.score k) f.sensitivity f.denominator (by rw [hdf]; exact hΔ)
            (by linarith [(abs_le.mp (h.close k hk)).2])
          simp only [hF, hG, hd]
          rw [show eps = f.sensitivity * eps / f.denominator by rw [hdf]; field_simp]
          convert this using 3 <;> (rw [hdf]; field_simp)
        · intro k hk
          have := expo (g.score k) (f.score k) 0 f.denominator (by rw [hdf]; exact hΔ) (by linarith [hdir k hk])
          simp only [hF, hG, hd]
          simpa using this
    | false =>
      have hdf : f.denominator = f.sensitivity * 2 := by unfold Scoring.denominator; rw [hm]; rfl
      have e2 : f.sensitivity * eps / f.denominator = eps / 2 := by rw [hdf]; field_simp
      refine ⟨eps / 2, eps / 2, by ring, ?_, ?_⟩
      · intro k hk
        have := expo (f.score k) (g.score k) f.sensitivity f.denominator (by rw [hdf]; linarith)
          (by linarith [(abs_le.mp (h.close k hk)).2])
        rw [e2] at this
        simp only [hF, hG, hd]
        exact this
      · intro k hk
        have := expo (g.score k) (f.score k) f.sensitivity f.denominator (by rw [hdf]; linarith)
          (by linarith [(abs_le.mp (h.close k hk)).1])
        rw [e2] at this
        simp only [hF, hG, hd]
        exact this
  have hsum : (inputs.map G).sum ≤ Real.exp b * (inputs.map F).sum := sum_le_factor G F _ inputs hden
  show F k / (inputs.map F).sum ≤ Real.exp eps * (G k / (inputs.map G).sum)
  rw [← mul_div_assoc, div_le_div_iff₀ hSF hSG, ← hab, Real.exp_add]
  have hGk : 0 ≤ G k := (Real.exp_pos _).le
  calc F k * (inputs.map G).sum ≤ (Real.exp a * G k) * (Real.exp b * (inputs.map F).sum) := by
        apply mul_le_mul (hnum k hk) hsum hSG.le
        exact mul_nonneg (Real.exp_pos _).le hGk
    _ = Real.exp a * Real.exp b * G k * (inputs.map F).sum := by ring

/-! ### C29 -/

/-- **C29.** For all scores whose values differ by at most the declared sensitivity (all in one direction when
declared monotonic), the probabilities of every set of outputs differ by a factor of at most e^eps. -/
theorem C29_exponential_mechanism_is_dp {α : Type} (f g : Scoring α) (eps : ℝ) (heps : 0 ≤ eps) (inputs : List α)
    (hne : inputs ≠ []) (h : Neighbouring f g inputs) :
    ∃ p q, probabilities Real.exp f eps inputs = .ok p ∧ probabilities Real.exp g eps inputs = .ok q ∧
      ∀ event, chosen inputs p event ≤ Real.exp eps * chosen inputs q event := by
  refine ⟨_, _, probabilities_ok f eps inputs hne, probabilities_ok g eps inputs hne, ?_⟩
  intro event
  rw [chosen_map, chosen_map]
  apply sum_le_factor
  intro k hk
  exact ratio_bound f g eps heps inputs h k (List.mem_filter.mp hk).1

/-- **C29.** The computed numbers are a probability distribution on the inputs. -/
theorem C29_probabilities {α : Type} (f : Scoring α) (eps : ℝ) (inputs : List α) (hne : inputs ≠ []) :
    ∃ p, probabilities Real.exp f eps inputs = .ok p ∧ p.length = inputs.length ∧ (∀ x ∈ p, 0 < x) ∧ p.sum = 1 := by
  have hs := sum_pos_exp (fun k => f.score k * eps / f.denominator) inputs hne
  refine ⟨_, probabilities_ok f eps inputs hne, by simp, ?_, ?_⟩
  · intro x hx
    obtain ⟨k, -, rfl⟩ := List.mem_map.mp hx
    exact div_pos (Real.exp_pos _) hs
  · have : (inputs.map fun k => Real.exp (f.score k * eps / f.denominator) /
          (inputs.map fun k => Real.exp (f.score k * eps / f.denominator)).sum).sum
        = (inputs.map fun k => Real.exp (f.score k * eps / f.denominator)).sum *
          (1 / (inputs.map fun k => Real.exp (f.score k * eps / f.denominator)).sum) := by
      rw [← List.sum_map_mul_right]
      congr 1
      apply List.map_congr_left
      intro k _
      rw [mul_one_div]
    rw [this, mul_one_div_cancel hs.ne']

/-- **C29.** A higher score never gets a smaller probability (the sensitivity and eps being positive). -/
theorem C29_higher_score_higher_probability {α : Type} (f : Scoring α) (eps : ℝ) (heps : 0 < eps)
    (hΔ : 0 < f.sensitivity) (inputs : List α) (i j : ℕ) (hi : i < inputs.length) (hj : j < inputs.length)
    (h : f.score inputs[i] ≤ f.score inputs[j]) (p : List ℝ) (hp : probabilities Real.exp f eps inputs = .ok p) :
    ∃ x y, p[i]? = some x ∧ p[j]? = some y ∧ x ≤ y := by
  have hne : inputs ≠ [] := List.ne_nil_of_mem (List.getElem_mem hi)
  rw [probabilities_ok f eps inputs hne] at hp
  have hp' := (Except.ok.inj hp).symm
  subst hp'
  refine ⟨_, _, by rw [List.getElem?_map, List.getElem?_eq_getElem hi]; rfl,
    by rw [List.getElem?_map, List.getElem?_eq_getElem hj]; rfl, ?_⟩
  apply div_le_div_of_nonneg_right _ (sum_pos_exp _ inputs hne).le
  rw [Real.exp_le_exp]
  have hd : 0 < f.denominator := by unfold Scoring.denominator; split <;> linarith
  apply div_le_div_of_nonneg_right _ hd.le
  nlinarith

/-- **C29.** The direction condition is needed: with scores that differ by at most the sensitivity but in both
directions, declaring them monotonic breaks the bound for every eps > 0. -/
theorem C29_monotonicity_matters (eps : ℝ) (heps : 0 < eps) :
    ∃ (f g : Scoring ℕ) (inputs : List ℕ), f.sensitivity = 1 ∧ g.sensitivity = 1 ∧ f.monotonic = true ∧ g.monotonic = true ∧
      (∀ k, |f.score k - g.score k| ≤ 1) ∧
      ∃ p q event, probabilities Real.exp f eps inputs = .ok p ∧ probabilities Real.exp g eps inputs = .ok q ∧
        Real.exp eps * chosen inputs q event < chosen inputs p event := by
  refine ⟨⟨fun k => if k = 0 then 1 else 0, 1, true⟩, ⟨fun k => if k = 0 then 0 else 1, 1, true⟩, [0, 1, 2], rfl, rfl,
    rfl, rfl, ?_, _, _, fun k => k = 0, probabilities_ok _ _ _ (by simp), probabilities_ok _ _ _ (by simp), ?_⟩
  · intro k; by_cases h : k = 0 <;> simp [h]
  · rw [chosen_map, chosen_map]
    have h1 : 1 < Real.exp eps := Real.one_lt_exp_iff.mpr heps
    simp [Scoring.denominator]
    set E := Real.exp eps with hE
    rw [← one_div, ← mul_div_assoc, div_lt_div_iff₀ (by linarith) (by linarith)]
    nlinarith

/-- Three candidates with scores that meet the conditions. -/
example : Neighbouring (⟨fun k : ℕ => -(k : ℝ), 2, true⟩) (⟨fun k => -(k : ℝ) - 1, 2, true⟩) [1, 2, 3] where
  sens := rfl
  mono := rfl
  pos := by norm_num
  close := by intro k _; simp
  direction := fun _ => Or.inr fun k _ => by simp

end PDP.PrivateBounds
