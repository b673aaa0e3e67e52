import Verif.Engine.Mechanism
import Mathlib.Tactic.Linarith

/-!
# Choice of the DP strategy (`analysis/dp_strategy_selector.py`)

The standard deviation of PyDP's Gaussian mechanism (`sigma eps delta l2`) and the thresholds of PyDP's thresholding
strategies (`threshold strategy eps delta l0`) are parameters.
-/

set_option linter.unusedVariables false

namespace PDP.Analysis.Strategy

open PDP.Engine (Sens mkSens NoiseKind Strategy Metric Err)
open PDP.Engine.Mechanism (laplaceFromEpsilon gaussianFromEpsDelta Additive pyLaplace)

/-! ### Model -/

/-- Functions of PyDP. -/
structure PyDP where
  sigma : ℝ → ℝ → ℝ → ℝ
  threshold : Strategy → ℝ → ℝ → ℝ → ℝ

/-- `DPStrategy` (`dp_strategy_selector.py:25-31`). -/
structure DPStrategy where
  noise : Option NoiseKind
  selection : Option Strategy
  thresholding : Bool

/-- The attributes of `DPStrategySelector`. -/
structure Selector where
  eps : ℝ
  delta : ℝ
  metrics : List Metric
  isPublic : Bool

open Classical in
/-- The constructor (`dp_strategy_selector.py:43-54`) with `validate_epsilon_delta` (`input_validators.py:17-34`). -/
noncomputable def mkSelector (eps delta : ℝ) (metrics : List Metric) (isPublic : Bool) : Except Err Selector :=
  if eps ≤ 0 then .error .valueError
  else if delta < 0 then .error .valueError
  else if delta ≥ 1 then .error .valueError
  else if delta = 0 ∧ isPublic = false then .error .valueError
  else .ok ⟨eps, delta, metrics, isPublic⟩

/-- A sensitivity used as a number. -/
def value (x : Option ℝ) : Except Err ℝ :=
  match x with
  | none => .error .typeError
  | some v => .ok v

open Classical in
/-- `select_noise_kind` with `_get_gaussian_std`, `_get_laplace_std` (`dp_strategy_selector.py:130-152`). -/
noncomputable def selectNoise (lib : PyDP) (eps delta : ℝ) (s : Sens) : Except Err NoiseKind :=
  if delta = 0 then .ok .laplace
  else do
    let l2 ← value s.l2
    let l1 ← value s.l1
    if (gaussianFromEpsDelta lib.sigma eps delta l2).std < (laplaceFromEpsilon eps l1).std then return .gaussian
    else return .laplace

open Classical in
/-- `select_partition_selection_strategy` (`dp_strategy_selector.py:158-195`). -/
noncomputable def selectStrategy (lib : PyDP) (eps delta l0 : ℝ) : Strategy :=
  if lib.threshold .laplaceThresholding eps delta l0 < lib.threshold .gaussianThresholding eps delta l0 then
    .truncatedGeometric
  else .gaussianThresholding

/-- `noise_to_thresholding(noise_kind).to_partition_selection_strategy()`. -/
def thresholdingOf : NoiseKind → Strategy
  | .laplace => .laplaceThresholding
  | .gaussian => .gaussianThresholding

/-- `get_dp_strategy` (`dp_strategy_selector.py:63-128`). -/
noncomputable def Selector.get (lib : PyDP) (c : Selector) (s : Sens) : Except Err DPStrategy :=
  if c.metrics = [] then do
    let l0 ← value s.l0
    return ⟨none, some (selectStrategy lib c.eps c.delta l0), false⟩
  else do
    let n := c.metrics.length
    let l0 ← value s.l0
    let scaled ← mkSens (some (l0 * n)) s.linf none none
    if c.isPublic then do
      let k ← selectNoise lib c.eps c.delta scaled
      return ⟨some k, none, false⟩
    else if .privacyIdCount ∈ c.metrics then do
      let deltaNoise := c.delta / 2
      let sens ← mkSens scaled.l0 (some 1) none none
      let k ← selectNoise lib c.eps deltaNoise sens
      return ⟨some k, some (thresholdingOf k), true⟩
    else do
      let k ← selectNoise lib (c.eps / 2) (c.delta / 2) scaled
      let l0 ← value scaled.l0
      return ⟨some k, some (selectStrategy lib (c.eps / 2) (c.delta / 2) l0), false⟩

/-- The strategy fields which `_add_dp_strategy_to_multi_parameter_configuration` (`parameter_tuning.py:241-272`) gives to a
configuration.  `l0s` are the `max_partitions_contributed` of the parameters of the configurations, `given` is the noise
kind which is not to be tuned. -/
noncomputable def addStrategies (lib : PyDP) (c : Selector) (given : Option NoiseKind) (l0s : List (Option ℕ)) :
    Except Err (List (Option NoiseKind) × Option (List (Option Strategy))) := do
  let l ← l0s.mapM fun l0 => do
    let s ← mkSens (l0.map fun x => ((x : ℕ) : ℝ)) (some 1) none none
    let d ← c.get lib s
    return ((match given with | none => d.noise | some k => some k), d.selection)
  return (l.map Prod.fst, if c.isPublic then none else some (l.map Prod.snd))

/-! ### Specification -/

/-- Standard deviation of the noise of one kind with the whole of (eps, delta) spent on a release with the sensitivities
L0 and Linf. -/
noncomputable def noiseStd (lib : PyDP) (k : NoiseKind) (eps delta l0 linf : ℝ) : ℝ :=
  match k with
  | .laplace => Real.sqrt 2 * (l0 * linf / eps)
  | .gaussian => lib.sigma eps delta (Real.sqrt l0 * linf)

/-- The kind has the smallest deviation; Laplace without delta and for equal deviations. -/
structure Best (lib : PyDP) (eps delta l0 linf : ℝ) (k : NoiseKind) : Prop where
  noDelta : delta = 0 → k = .laplace
  smallest : delta ≠ 0 → ∀ k', noiseStd lib k eps delta l0 linf ≤ noiseStd lib k' eps delta l0 linf
  tie : noiseStd lib .laplace eps delta l0 linf = noiseStd lib .gaussian eps delta l0 linf → k = .laplace

/-- The strategy of the smaller threshold, with truncated geometric in the place of Laplace thresholding. -/
def BestSelection (lib : PyDP) (eps delta l0 : ℝ) (st : Strategy) : Prop :=
  (st = .truncatedGeometric ∧
    lib.threshold .laplaceThresholding eps delta l0 < lib.threshold .gaussianThresholding eps delta l0) ∨
  (st = .gaussianThresholding ∧
    lib.threshold .gaussianThresholding eps delta l0 ≤ lib.threshold .laplaceThresholding eps delta l0)

/-! ### Properties -/

theorem mkSens_pair {a b : ℝ} (ha : 0 < a) (hb : 0 < b) :
    mkSens (some a) (some b) none none = .ok ⟨some a, some b, some (a * b), some (Real.sqrt a * b)⟩ := by
  unfold mkSens
  rw [if_pos (by simp [PDP.Engine.positiveOrNone, ha, hb])]
  rfl

theorem selectNoise_best (lib : PyDP) (eps delta : ℝ) {a b : ℝ} :
    ∃ k, selectNoise lib eps delta ⟨some a, some b, some (a * b), some (Real.sqrt a * b)⟩ = .ok k ∧ Best lib eps delta a b k := by
  have hl : (laplaceFromEpsilon eps (a * b)).std = noiseStd lib .laplace eps delta a b := by
    simp only [laplaceFromEpsilon, pyLaplace, Additive.std, noiseStd]; ring
  have hg : (gaussianFromEpsDelta lib.sigma eps delta (Real.sqrt a * b)).std = noiseStd lib .gaussian eps delta a b := rfl
  unfold selectNoise
  by_cases hd : delta = 0
  · rw [if_pos hd]
    exact ⟨_, rfl, fun _ => rfl, fun h => absurd hd h, fun _ => rfl⟩
  · rw [if_neg hd]
    simp only [value, bind, Except.bind, hl, hg]
    split
    · rename_i h
      refine ⟨_, rfl, fun h' => absurd h' hd, fun _ k' => ?_, fun h' => absurd h' (ne_of_gt h)⟩
      cases k'
      · exact h.le
      · exact le_refl _
    · rename_i h
      refine ⟨_, rfl, fun h' => absurd h' hd, fun _ k' => ?_, fun _ => rfl⟩
      cases k'
      · exact le_refl _
      · exact not_lt.mp h

theorem selectStrategy_best (lib : PyDP) (eps delta l0 : ℝ) : BestSelection lib eps delta l0 (selectStrategy lib eps delta l0) := by
  unfold selectStrategy BestSelection
  split
  · rename_i h; exact Or.inl ⟨rfl, h⟩
  · rename_i h; exact Or.inr ⟨rfl, not_lt.mp h⟩

/-- **C47.** A selector is built exactly for a positive epsilon and a delta in [0, 1) which is positive for private
partitions. -/
theorem C47_valid (eps delta : ℝ) (metrics : List Metric) (isPublic : Bool) :
    mkSelector eps delta metrics isPublic = .ok ⟨eps, delta, metrics, isPublic⟩ ∧ 0 < eps ∧ 0 ≤ delta ∧ delta < 1 ∧
      (isPublic = false → 0 < delta) ∨
    mkSelector eps delta metrics isPublic = .error .valueError ∧
      ¬ (0 < eps ∧ 0 ≤ delta ∧ delta < 1 ∧ (isPublic = false → 0 < delta)) := by
  unfold mkSelector
  split
  · rename_i h; exact Or.inr ⟨rfl, fun h' => absurd h'.1 (not_lt.mpr h)⟩
  split
  · rename_i h; exact Or.inr ⟨rfl, fun h' => absurd h'.2.1 (not_le.mpr h)⟩
  split
  · rename_i h; exact Or.inr ⟨rfl, fun h' => absurd h'.2.2.1 (not_lt.mpr h)⟩
  split
  · rename_i h; exact Or.inr ⟨rfl, fun h' => absurd (h'.2.2.2 h.2) (by rw [h.1]; simp)⟩
  · rename_i h1 h2 h3 h4
    push Not at h1 h2 h3 h4
    exact Or.inl ⟨rfl, h1, h2, h3, fun h => lt_of_le_of_ne h2 fun h0 => h4 h0.symm h⟩

/-- **C47.** For positive sensitivities a strategy is always found.  Without metrics, it is only a strategy for partition
selection.  With public partitions, there is no partition selection and no thresholding.  With private partitions and
PRIVACY_ID_COUNT among the metrics, the noisy privacy id count is thresholded with the same noise; otherwise the two steps
are chosen each for half of the budget.  The noise is the best for this budget and `n` times the partitions, for `n`
metrics. -/
theorem C47_strategy (lib : PyDP) (c : Selector) (l0 linf : ℝ) (h0 : 0 < l0) (hi : 0 < linf) (s : Sens)
    (hs : mkSens (some l0) (some linf) none none = .ok s) :
    ∃ d, c.get lib s = .ok d ∧
      (c.metrics = [] → d.noise = none ∧ d.thresholding = false ∧
        ∃ st, d.selection = some st ∧ BestSelection lib c.eps c.delta l0 st) ∧
      (c.metrics ≠ [] → c.isPublic = true → d.selection = none ∧ d.thresholding = false ∧
        ∃ k, d.noise = some k ∧ Best lib c.eps c.delta (l0 * c.metrics.length) linf k) ∧
      (c.metrics ≠ [] → c.isPublic = false → Metric.privacyIdCount ∈ c.metrics → d.thresholding = true ∧
        ∃ k, d.noise = some k ∧ Best lib c.eps (c.delta / 2) (l0 * c.metrics.length) 1 k ∧
          d.selection = some (thresholdingOf k)) ∧
      (c.metrics ≠ [] → c.isPublic = false → Metric.privacyIdCount ∉ c.metrics → d.thresholding = false ∧
        (∃ k, d.noise = some k ∧ Best lib (c.eps / 2) (c.delta / 2) (l0 * c.metrics.length) linf k) ∧
        ∃ st, d.selection = some st ∧ BestSelection lib (c.eps / 2) (c.delta / 2) (l0 * c.metrics.length) st) := by
  rw [mkSens_pair h0 hi] at hs
  cases hs
  unfold Selector.get
  by_cases hm : c.metrics = []
  · rw [if_pos hm]
    exact ⟨_, rfl, fun _ => ⟨rfl, rfl, _, rfl, selectStrategy_best _ _ _ _⟩, fun h => absurd hm h, fun h => absurd hm h,
      fun h => absurd hm h⟩
  · rw [if_neg hm]
    have hn : (0 : ℝ) < c.metrics.length := by exact_mod_cast List.length_pos_iff.mpr hm
    have hscaled := mkSens_pair (mul_pos h0 hn) hi
    simp only [value, bind, Except.bind, hscaled]
    cases hp : c.isPublic with
    | true =>
      obtain ⟨k, hk, hb⟩ := selectNoise_best lib c.eps c.delta (a := l0 * c.metrics.length) (b := linf)
      simp only [hk, if_true]
      exact ⟨_, rfl, fun h => absurd h hm, fun _ _ => ⟨rfl, rfl, k, rfl, hb⟩, fun _ h => by simp at h, fun _ h => by simp at h⟩
    | false =>
      simp only [Bool.false_eq_true, if_false]
      by_cases hc : Metric.privacyIdCount ∈ c.metrics
      · obtain ⟨k, hk, hb⟩ := selectNoise_best lib c.eps (c.delta / 2) (a := l0 * c.metrics.length) (b := 1)
        simp only [if_pos hc, mkSens_pair (mul_pos h0 hn) one_pos, hk]
        exact ⟨_, rfl, fun h => absurd h hm, fun _ h => by simp at h, fun _ _ _ => ⟨rfl, k, rfl, hb, rfl⟩,
          fun _ _ h => absurd hc h⟩
      · obtain ⟨k, hk, hb⟩ := selectNoise_best lib (c.eps / 2) (c.delta / 2) (a := l0 * c.metrics.length) (b := linf)
        simp only [if_neg hc, hk]
        exact ⟨_, rfl, fun h => absurd h hm, fun _ h => by simp at h, fun _ _ h => absurd h hc,
          fun _ _ _ => ⟨rfl, ⟨k, rfl, hb⟩, _, rfl, selectStrategy_best _ _ _ _⟩⟩

/-- **C47.** Without delta the noise is Laplace (whatever the metrics). -/
theorem C47_laplace_without_delta (lib : PyDP) (c : Selector) (h : c.delta = 0) (s : Sens) (d : DPStrategy)
    (hd : c.get lib s = .ok d) : d.noise = none ∨ d.noise = some .laplace := by
  have hn : ∀ e (s : Sens), selectNoise lib e 0 s = .ok .laplace := fun e s => by unfold selectNoise; rw [if_pos rfl]
  unfold Selector.get at hd
  simp only [h, zero_div, hn, bind, Except.bind, pure, Except.pure] at hd
  split at hd
  · split at hd
    · cases hd
    · cases hd; exact Or.inl rfl
  · split at hd
    · cases hd
    split at hd
    · cases hd
    split at hd
    · cases hd; exact Or.inr rfl
    split at hd
    · split at hd
      · cases hd
      · cases hd; exact Or.inr rfl
    · split at hd
      · cases hd
      · cases hd; exact Or.inr rfl

/-- **C47.** The value of Linf does not matter for the choice, if the Gaussian deviation is proportional to the sensitivity
(this is why tuning may use `linf=1`). -/
theorem C47_linf_irrelevant (lib : PyDP) (hlib : ∀ e d x y, 0 < y → lib.sigma e d (x * y) = lib.sigma e d x * y)
    (c : Selector) (l0 a b : ℝ) (h0 : 0 < l0) (ha : 0 < a) (hb : 0 < b) (s s' : Sens)
    (hs : mkSens (some l0) (some a) none none = .ok s) (hs' : mkSens (some l0) (some b) none none = .ok s') :
    c.get lib s = c.get lib s' := by
  have key : ∀ e d x, ∀ y z : ℝ, 0 < y → 0 < z →
      selectNoise lib e d ⟨some x, some y, some (x * y), some (Real.sqrt x * y)⟩
        = selectNoise lib e d ⟨some x, some z, some (x * z), some (Real.sqrt x * z)⟩ := by
    intro e d x y z hy hz
    have red : ∀ y : ℝ, 0 < y → ((gaussianFromEpsDelta lib.sigma e d (Real.sqrt x * y)).std < (laplaceFromEpsilon e (x * y)).std
        ↔ lib.sigma e d (Real.sqrt x) < x / e * Real.sqrt 2) := by
      intro y hy
      simp only [gaussianFromEpsDelta, laplaceFromEpsilon, pyLaplace, Additive.std, hlib e d _ y hy]
      rw [show x * y / e * Real.sqrt 2 = x / e * Real.sqrt 2 * y by ring]
      exact mul_lt_mul_iff_left₀ hy
    unfold selectNoise
    split
    · rfl
    · simp only [value, bind, Except.bind]
      by_cases hc : lib.sigma e d (Real.sqrt x) < x / e * Real.sqrt 2
      · rw [if_pos ((red y hy).mpr hc), if_pos ((red z hz).mpr hc)]
      · rw [if_neg (mt (red y hy).mp hc), if_neg (mt (red z hz).mp hc)]
  rw [mkSens_pair h0 ha] at hs
  rw [mkSens_pair h0 hb] at hs'
  cases hs; cases hs'
  unfold Selector.get
  split
  · rfl
  · rename_i hm
    have hn : (0 : ℝ) < c.metrics.length := by exact_mod_cast List.length_pos_iff.mpr hm
    simp only [value, bind, Except.bind, mkSens_pair (mul_pos h0 hn) ha, mkSens_pair (mul_pos h0 hn) hb,
      key _ _ _ a b ha hb]

/-- **C47.** Every configuration gets the noise kind which the user fixed, or else the one selected for its own
`max_partitions_contributed`; with private partitions also the selected strategy.  All configurations get one (so the lists
have the length of the configuration, as C55 needs). -/
theorem C47_configurations (lib : PyDP) (c : Selector) (given : Option NoiseKind) (l0s : List ℕ) (hl : ∀ l ∈ l0s, 0 < l) :
    ∃ (noise : List (Option NoiseKind)) (sel : Option (List (Option Strategy))) (ds : List DPStrategy),
      addStrategies lib c given (l0s.map some) = .ok (noise, sel) ∧
      List.Forall₂ (fun (l : ℕ) d => ∃ s, mkSens (some (l : ℝ)) (some 1) none none = .ok s ∧ c.get lib s = .ok d) l0s ds ∧
      noise = ds.map (fun d => if given = none then d.noise else given) ∧
      sel = (if c.isPublic then none else some (ds.map fun d => d.selection)) ∧
      noise.length = l0s.length := by
  have main : ∃ (l : List (Option NoiseKind × Option Strategy)) (ds : List DPStrategy),
      ((l0s.map some).mapM fun l0 : Option ℕ => do
        let s ← mkSens (l0.map fun x => ((x : ℕ) : ℝ)) (some 1) none none
        let d ← c.get lib s
        return ((match given with | none => d.noise | some k => some k), d.selection)) = Except.ok l ∧
      List.Forall₂ (fun (l : ℕ) d => ∃ s, mkSens (some (l : ℝ)) (some 1) none none = .ok s ∧ c.get lib s = .ok d) l0s ds ∧
      l = ds.map fun d => ((if given = none then d.noise else given), d.selection) := by
    induction l0s with
    | nil => exact ⟨[], [], rfl, .nil, rfl⟩
    | cons x l0s ih =>
      obtain ⟨l, ds, h1, h2, h3⟩ := ih fun l h => hl l (List.mem_cons_of_mem _ h)
      have hx : (0 : ℝ) < x := by exact_mod_cast hl x (by simp)
      have hs := mkSens_pair hx one_pos
      obtain ⟨d, hd, -⟩ := C47_strategy lib c x 1 hx one_pos _ hs
      refine ⟨((if given = none then d.noise else given), d.selection) :: l, d :: ds, ?_, .cons ⟨_, hs, hd⟩ h2, by rw [h3]; rfl⟩
      rw [List.map_cons, List.mapM_cons, h1]
      simp only [Option.map_some, hs, bind, Except.bind, hd, pure, Except.pure]
      cases given <;> rfl
  obtain ⟨l, ds, h1, h2, h3⟩ := main
  refine ⟨l.map Prod.fst, if c.isPublic then none else some (l.map Prod.snd), ds, ?_, h2, ?_, ?_, ?_⟩
  · unfold addStrategies
    rw [h1]; rfl
  · rw [h3, List.map_map]; rfl
  · rw [h3, List.map_map]; rfl
  · rw [h3, List.length_map, List.length_map, h2.length_eq]

/-- **C47, gap.** With several metrics the noise kind is *not* the best for the budget which each metric gets.  The naive
accountant gives each of `n` metrics (eps / n, delta / n) for L0, but the selector compares the deviations for (eps, delta)
and `n · L0`, which is the same for Laplace and too small for Gaussian noise.  Take any Gaussian deviation of the usual form
`f(delta) · L2 / eps`.  If `√2 · √L0 ≤ f(delta / n)` and `f(delta) < √2 · √(n · L0)`, then the selector takes Gaussian noise
although Laplace noise is better for every metric. -/
theorem C47_share_gap (lib : PyDP) (f : ℝ → ℝ) (hlib : ∀ e d x, lib.sigma e d x = f d * x / e) (c : Selector)
    (heps : 0 < c.eps) (hdelta : c.delta ≠ 0) (hpub : c.isPublic = true) (hm : c.metrics ≠ []) (l0 : ℝ) (h0 : 0 < l0)
    (hgauss : f c.delta < Real.sqrt 2 * Real.sqrt (l0 * c.metrics.length))
    (hlap : Real.sqrt 2 * Real.sqrt l0 ≤ f (c.delta / c.metrics.length))
    (s : Sens) (hs : mkSens (some l0) (some 1) none none = .ok s) :
    (∃ d, c.get lib s = .ok d ∧ d.noise = some .gaussian) ∧
      noiseStd lib .laplace (c.eps / c.metrics.length) (c.delta / c.metrics.length) l0 1
        ≤ noiseStd lib .gaussian (c.eps / c.metrics.length) (c.delta / c.metrics.length) l0 1 := by
  have hn : (0 : ℝ) < c.metrics.length := by exact_mod_cast List.length_pos_iff.mpr hm
  constructor
  · obtain ⟨d, hd, -, h2, -⟩ := C47_strategy lib c l0 1 h0 one_pos s hs
    obtain ⟨-, -, k, hk, hb⟩ := h2 hm hpub
    refine ⟨d, hd, ?_⟩
    rw [hk]
    cases k with
    | gaussian => rfl
    | laplace =>
      exfalso
      have := hb.smallest hdelta .gaussian
      simp only [noiseStd, hlib, mul_one] at this
      set x := l0 * c.metrics.length with hx
      have hxp : 0 < x := mul_pos h0 hn
      have h1 : Real.sqrt 2 * (x / c.eps) = Real.sqrt 2 * Real.sqrt x * Real.sqrt x / c.eps := by
        rw [mul_assoc, Real.mul_self_sqrt hxp.le]; ring
      rw [h1] at this
      have h2 := (div_le_div_iff_of_pos_right heps).mp this
      have h3 := le_of_mul_le_mul_right h2 (Real.sqrt_pos.mpr hxp)
      linarith
  · simp only [noiseStd, hlib, mul_one]
    have he : 0 < c.eps / c.metrics.length := div_pos heps hn
    have h1 : Real.sqrt 2 * (l0 / (c.eps / c.metrics.length))
        = Real.sqrt 2 * Real.sqrt l0 * Real.sqrt l0 / (c.eps / c.metrics.length) := by
      rw [mul_assoc, Real.mul_self_sqrt h0.le]; ring
    rw [h1]
    apply div_le_div_of_nonneg_right _ he.le
    exact mul_le_mul_of_nonneg_right hlap (Real.sqrt_nonneg _)

/-- The hypotheses of `C47_share_gap` can be met: 4 metrics, L0 = 4, `f = 3`. -/
example : ∃ (lib : PyDP) (f : ℝ → ℝ) (c : Selector), (∀ e d x, lib.sigma e d x = f d * x / e) ∧ 0 < c.eps ∧ c.delta ≠ 0 ∧
    c.isPublic = true ∧ c.metrics ≠ [] ∧ f c.delta < Real.sqrt 2 * Real.sqrt ((4 : ℝ) * c.metrics.length) ∧
    Real.sqrt 2 * Real.sqrt 4 ≤ f (c.delta / c.metrics.length) := by
  refine ⟨⟨fun e d x => 3 * x / e, fun _ _ _ _ => 0⟩, fun _ => 3,
    ⟨1, 1e-6, [.count, .sum, .mean, .variance], true⟩, fun _ _ _ => rfl, one_pos, by norm_num, rfl, by simp, ?_, ?_⟩
  · rw [← Real.sqrt_mul (by norm_num)]
    apply Real.lt_sqrt_of_sq_lt
    norm_num
  · rw [← Real.sqrt_mul (by norm_num)]
    apply Real.sqrt_le_iff.mpr
    norm_num

/-- **C47, gap.** If the user fixed the noise kind, the thresholding strategy of a configuration may still be the one of the
other kind. -/
theorem C47_fixed_noise_ignored (lib : PyDP) (c : Selector) (hc : c.isPublic = false) (hm : Metric.privacyIdCount ∈ c.metrics)
    (l0 : ℕ) (h0 : 0 < l0)
    (hbest : lib.sigma c.eps (c.delta / 2) (Real.sqrt ((l0 : ℝ) * c.metrics.length)) < Real.sqrt 2 * (l0 * c.metrics.length / c.eps))
    (hd : c.delta ≠ 0) :
    addStrategies lib c (some .laplace) [some l0] = .ok ([some .laplace], some [some .gaussianThresholding]) := by
  have hx : (0 : ℝ) < l0 := by exact_mod_cast h0
  have hne : c.metrics ≠ [] := List.ne_nil_of_mem hm
  have hs := mkSens_pair hx one_pos
  obtain ⟨d, hd1, -, -, h3, -⟩ := C47_strategy lib c l0 1 hx one_pos _ hs
  obtain ⟨-, k, hk, hb, hsel⟩ := h3 hne hc hm
  have hkg : k = .gaussian := by
    cases k with
    | gaussian => rfl
    | laplace =>
      have := hb.smallest (by simpa using hd) .gaussian
      simp only [noiseStd, mul_one] at this
      linarith
  subst hkg
  unfold addStrategies
  simp only [List.mapM_cons, List.mapM_nil, Option.map_some, hs, bind, Except.bind, hd1, pure, Except.pure, List.map_cons,
    List.map_nil, hc, hsel]
  rfl

end PDP.Analysis.Strategy
