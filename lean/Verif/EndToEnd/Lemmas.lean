import Verif.EndToEnd.Spec
import Verif.Engine.ReleaseProps
import Verif.Budget.Props

/-! # Lemmas for the whole pipeline -/

set_option linter.unusedSectionVars false
set_option linter.unusedVariables false
set_option linter.unusedSimpArgs false

namespace PDP.EndToEnd

open PDP PDP.Engine
open PDP.Engine.Mechanism (Additive createAdditive computed pyLaplace laplaceDensity C58_laplace_privacy_loss)
open PDP.Engine.AddNoise (specOf)
open PDP.Budget (State Op MechType)

variable {R P K : Type} [DecidableEq P] [DecidableEq K]

/-! ### Sensitivities -/

theorem covers_neg {s : Sens} {Δ : K → ℚ} (h : s.Covers Δ) : s.Covers fun k => -Δ k := by
  obtain ⟨a, b, c, d⟩ := h
  constructor
  · simpa using a
  · simpa using b
  · simpa using c
  · simpa using d

theorem mkSens_l1_pos {a b c d : Option ℝ} {s : Sens} (h : mkSens a b c d = .ok s) : ∀ x, s.l1 = some x → 0 < x := by
  unfold mkSens at h
  split at h
  · rename_i hp
    simp only [Bool.and_eq_true, Engine.Mechanism.positiveOrNone_iff] at hp
    obtain ⟨⟨⟨h1, h2⟩, h3⟩, h4⟩ := hp
    intro x hx
    split at h
    · simp only [Except.ok.injEq] at h; subst h; exact h3 x hx
    · simp at h
    · simp at h
    · rename_i y z
      have hy := h1 y rfl
      have hz := h2 z rfl
      split at h
      · split at h
        · simp only [Except.ok.injEq] at h; subst h
          simp only [Option.some.injEq] at hx; subst hx; exact mul_pos hy hz
        · split at h
          · simp at h
          · simp only [Except.ok.injEq] at h; subst h
            simp only [Option.some.injEq] at hx; subst hx; exact mul_pos hy hz
      · split at h
        · simp at h
        · split at h
          · simp only [Except.ok.injEq] at h; subst h; exact h3 x hx
          · split at h
            · simp at h
            · simp only [Except.ok.injEq] at h; subst h; exact h3 x hx
  · simp at h

theorem mkSens_l2_pos {a b c d : Option ℝ} {s : Sens} (h : mkSens a b c d = .ok s) : ∀ x, s.l2 = some x → 0 < x := by
  unfold mkSens at h
  split at h
  · rename_i hp
    simp only [Bool.and_eq_true, Engine.Mechanism.positiveOrNone_iff] at hp
    obtain ⟨⟨⟨h1, h2⟩, h3⟩, h4⟩ := hp
    intro x hx
    split at h
    · simp only [Except.ok.injEq] at h; subst h; exact h4 x hx
    · simp at h
    · simp at h
    · rename_i y z
      have hy := h1 y rfl
      have hz := h2 z rfl
      have hyz : 0 < l2Sens y z := mul_pos (Real.sqrt_pos.mpr hy) hz
      split at h
      · split at h
        · simp only [Except.ok.injEq] at h; subst h
          simp only [Option.some.injEq] at hx; subst hx; exact hyz
        · split at h
          · simp at h
          · simp only [Except.ok.injEq] at h; subst h; exact h4 x hx
      · split at h
        · simp at h
        · split at h
          · simp only [Except.ok.injEq] at h; subst h
            simp only [Option.some.injEq] at hx; subst hx; exact hyz
          · split at h
            · simp at h
            · simp only [Except.ok.injEq] at h; subst h; exact h4 x hx
  · simp at h

theorem sensCount_pos {p : Params} {s : Sens} (h : sensCount p = .ok s) :
    (∀ x, s.l1 = some x → 0 < x) ∧ ∀ x, s.l2 = some x → 0 < x := by
  unfold sensCount at h
  split at h <;> exact ⟨mkSens_l1_pos h, mkSens_l2_pos h⟩

theorem sensPid_pos {p : Params} {s : Sens} (h : sensPrivacyIdCount p = .ok s) :
    (∀ x, s.l1 = some x → 0 < x) ∧ ∀ x, s.l2 = some x → 0 < x := by
  unfold sensPrivacyIdCount at h
  split at h <;> exact ⟨mkSens_l1_pos h, mkSens_l2_pos h⟩

theorem sensSum_pos {p : Params} {s : Sens} (h : sensSum p = .ok s) :
    (∀ x, s.l1 = some x → 0 < x) ∧ ∀ x, s.l2 = some x → 0 < x := by
  unfold sensSum at h
  simp only [bind, Except.bind] at h
  repeat' split at h
  all_goals first
    | exact ⟨mkSens_l1_pos h, mkSens_l2_pos h⟩
    | simp at h

theorem sensNormalizedSum_pos {p : Params} {s : Sens} (h : sensNormalizedSum p = .ok s) :
    (∀ x, s.l1 = some x → 0 < x) ∧ ∀ x, s.l2 = some x → 0 < x := by
  unfold sensNormalizedSum at h
  simp only [bind, Except.bind] at h
  repeat' split at h
  all_goals first
    | exact ⟨mkSens_l1_pos h, mkSens_l2_pos h⟩
    | simp at h

/-! ### Noisy numbers of all combiners -/

/-- The share of its budget that each number of a combiner uses. -/
noncomputable def share : Part → ℝ
  | .variance _ _ => 1 / 3
  | _ => 1

/-- All numbers of the combiners, read from the tuple of accumulators, with their shares. -/
noncomputable def flat (sigma : ℝ → ℝ → ℝ → ℝ) (p : Params) :
    (parts : List Part) → List (ℝ × Number (Combiner.AccTuple (combinersOf sigma p parts)))
  | [] => []
  | part :: parts =>
    ((view sigma p part).numbers.map fun n => (share part, ⟨n.spec, n.comp, n.mech, fun a => n.read a.1⟩)) ++
      (flat sigma p parts).map fun n => (n.1, ⟨n.2.spec, n.2.comp, n.2.mech, fun a => n.2.read a.2⟩)

/-- The conditions under which a combiner's numbers are covered. -/
def PartOk (p : Params) : Part → Prop
  | .count _ => True
  | .privacyIdCount _ => p.boundsEnforced = false
  | .sum _ => SumOk p
  | .mean _ _ _ => MeanOk p
  | .variance _ _ => VarianceOk p
  | _ => False

theorem flat_mem (sigma : ℝ → ℝ → ℝ → ℝ) (p : Params) (parts : List Part) (x) (hx : x ∈ flat sigma p parts) :
    ∃ (i : Fin (combinersOf sigma p parts).length) (part : Part) (v : View) (hv : view sigma p part = v)
      (h : (combinersOf sigma p parts)[i] = v.comb) (n : Number v.comb.Acc),
      part ∈ parts ∧ n ∈ v.numbers ∧ x.1 = share part ∧ x.2.spec = n.spec ∧ x.2.comp = n.comp ∧ x.2.mech = n.mech ∧
      ∀ a : (Combiner.compound (combinersOf sigma p parts)).Acc, x.2.read a.2 = n.read (Combiner.readAs v.comb i h a) := by
  induction parts with
  | nil => simp [flat] at hx
  | cons part parts ih =>
    simp only [flat, List.mem_append, List.mem_map] at hx
    rcases hx with ⟨n, hn, rfl⟩ | ⟨y, hy, rfl⟩
    · exact ⟨⟨0, by simp [combinersOf]⟩, part, _, rfl, rfl, n, by simp, hn, rfl, rfl, rfl, rfl, fun a => rfl⟩
    · obtain ⟨i, part', v, hv, h, n, h1, h2, h3, h4, h5, h6, h7⟩ := ih y hy
      refine ⟨⟨i.1 + 1, by have := i.2; simp [combinersOf] at this ⊢; exact this⟩, part', v, hv, h, n, by simp [h1], h2, h3,
        h4, h5, h6, fun a => ?_⟩
      exact h7 (a.1, a.2.2)

/-- The mechanism of a number (if it can be created). -/
noncomputable def getMech (s : Specs) (f : Engine.Mechanism.Spec → Except Engine.Mechanism.Err Additive) (i : ℕ) : Additive :=
  match f (s i) with
  | .ok m => m
  | .error _ => .laplace 0 0

theorem evalParts_eq (sigma : ℝ → ℝ → ℝ → ℝ) (s : Specs) (p : Params) (k : K) (parts : List Part)
    (a : Combiner.AccTuple (combinersOf sigma p parts))
    (hm : ∀ x ∈ flat sigma p parts, ∃ m, x.2.mech (s x.2.spec) = .ok m) :
    evalParts sigma s p k parts a = .ok ((flat sigma p parts).map fun x =>
      ⟨k, x.2.spec, x.2.comp, x.2.read a, getMech s x.2.mech x.2.spec⟩) := by
  induction parts with
  | nil => rfl
  | cons part parts ih =>
    have h1 : evalView s k (view sigma p part) a.1 = .ok ((view sigma p part).numbers.map fun n =>
        ⟨k, n.spec, n.comp, n.read a.1, getMech s n.mech n.spec⟩) := by
      have hh : ∀ n ∈ (view sigma p part).numbers, ∃ m, n.mech (s n.spec) = .ok m := by
        intro n hn
        exact hm (share part, ⟨n.spec, n.comp, n.mech, fun a => n.read a.1⟩)
          (by simp only [flat, List.mem_append, List.mem_map]; exact Or.inl ⟨n, hn, rfl⟩)
      unfold evalView
      generalize (view sigma p part).numbers = l at hh
      induction l with
      | nil => rfl
      | cons n l ihl =>
        obtain ⟨m, h⟩ := hh n (by simp)
        rw [List.mapM_cons, h, ihl fun x hx => hh x (by simp [hx])]
        simp only [List.map_cons, getMech, h]
        rfl
    have h2 := ih a.2 fun x hx => by
      exact hm (x.1, ⟨x.2.spec, x.2.comp, x.2.mech, fun a => x.2.read a.2⟩)
        (by simp only [flat, List.mem_append, List.mem_map]; exact Or.inr ⟨x, hx, rfl⟩)
    unfold evalParts
    rw [h1, h2]
    simp only [flat, List.map_append, List.map_map]
    rfl

/-! ### Every number is covered -/

theorem additive_laplace (sigma : ℝ → ℝ → ℝ → ℝ) {sens : Except Engine.Err Sens} {s : Sens} (h : sens = .ok s) {x : ℝ}
    (hx : s.l1 = some x) {e : ℝ} {d : Option ℝ} :
    additive sigma sens ⟨.laplace, none, some e, d⟩ = .ok (.laplace (x / e) x) := by
  subst h
  obtain ⟨a, b, c, d⟩ := s
  simp only at hx
  subst hx
  rfl

theorem thirdOf_laplace (sigma : ℝ → ℝ → ℝ → ℝ) (l0 linf e d : ℝ) :
    thirdOf sigma .laplace l0 linf ⟨.laplace, none, some e, some d⟩ = .ok (.laplace (l1Sens l0 linf / (1 / 3 * e))
      (l1Sens l0 linf)) := by
  show Except.ok (pyLaplace (e / 3) _) = _
  rw [show e / 3 = 1 / 3 * e by ring]
  rfl

theorem additive_gaussian (sigma : ℝ → ℝ → ℝ → ℝ) {sens : Except Engine.Err Sens} {s : Sens} (h : sens = .ok s) {x : ℝ}
    (hx : s.l2 = some x) {e d : ℝ} :
    additive sigma sens ⟨.gaussian, none, some e, some d⟩ = .ok (.gaussian (sigma e d x) x) := by
  subst h
  obtain ⟨a, b, c, d⟩ := s
  simp only at hx
  subst hx
  rfl

theorem additive_laplace_std (sigma : ℝ → ℝ → ℝ → ℝ) {sens : Except Engine.Err Sens} {s : Sens} (h : sens = .ok s) {x : ℝ}
    (hx : s.l1 = some x) {t : ℝ} {e d : Option ℝ} :
    additive sigma sens ⟨.laplace, some t, e, d⟩ = .ok (.laplace (x / (1 / (t / Real.sqrt 2))) x) := by
  subst h
  obtain ⟨a, b, c, d⟩ := s
  simp only at hx
  subst hx
  rfl

theorem additive_gaussian_std (sigma : ℝ → ℝ → ℝ → ℝ) {sens : Except Engine.Err Sens} {s : Sens} (h : sens = .ok s) {x : ℝ}
    (hx : s.l2 = some x) {t : ℝ} {e d : Option ℝ} :
    additive sigma sens ⟨.gaussian, some t, e, d⟩ = .ok (.gaussian (t * x) x) := by
  subst h
  obtain ⟨a, b, c, d⟩ := s
  simp only at hx
  subst hx
  rfl

theorem thirdOf_gaussian (sigma : ℝ → ℝ → ℝ → ℝ) (l0 linf e d : ℝ) :
    thirdOf sigma .gaussian l0 linf ⟨.gaussian, none, some e, some d⟩ = .ok (.gaussian
      (sigma (1 / 3 * e) (1 / 3 * d) (l2Sens l0 linf)) (l2Sens l0 linf)) := by
  show Except.ok (Additive.gaussian (sigma (e / 3) (d / 3) _) _) = _
  rw [show e / 3 = 1 / 3 * e by ring, show d / 3 = 1 / 3 * d by ring]

theorem squares_ne {lo hi : ℚ} (h : lo < hi) : (squaresInterval lo hi).1 < (squaresInterval lo hi).2 ∨
    (squaresInterval lo hi).2 < (squaresInterval lo hi).1 := by
  unfold squaresInterval
  split
  · left
    rename_i h'
    exact lt_of_lt_of_le (by have := h'.2; positivity) (le_max_right _ _)
  · rename_i h'
    by_cases h0 : 0 ≤ lo
    · left; simp only; nlinarith
    · right
      have : hi ≤ 0 := by
        by_contra hh; exact h' ⟨lt_of_not_ge h0, lt_of_not_ge hh⟩
      simp only; nlinarith

/-- What is known of a number with noise of one kind. -/
def NumberCovered (sigma : ℝ → ℝ → ℝ → ℝ) (kind : NoiseKind) (mech : Engine.Mechanism.Spec → Except Engine.Mechanism.Err Additive)
    (share : ℝ) (Δ : K → ℚ) : Prop :=
  ∃ (s : Sens) (x y : ℝ), s.l1 = some x ∧ s.l2 = some y ∧ 0 < x ∧ 0 < y ∧ s.Covers Δ ∧
    (kind = .laplace → ∀ e d : ℝ, mech ⟨.laplace, none, some e, some d⟩ = .ok (.laplace (x / (share * e)) x)) ∧
    (kind = .gaussian → ∀ e d : ℝ, mech ⟨.gaussian, none, some e, some d⟩
      = .ok (.gaussian (sigma (share * e) (share * d) y) y)) ∧
    (share = 1 → ∀ (t : ℝ) (e d : Option ℝ), mech ⟨.laplace, some t, e, d⟩ = .ok (.laplace (x / (1 / (t / Real.sqrt 2))) x) ∧
      mech ⟨.gaussian, some t, e, d⟩ = .ok (.gaussian (t * y) y))

/-- Every number of a supported combiner: its mechanism is noise calibrated to sensitivities which cover the change
of the exact values caused by one privacy id, with its share of the budget. -/
theorem number_covered_any (sigma : ℝ → ℝ → ℝ → ℝ) (B : Backend) (hB : B.Lawful) (hK : B.KeyLocal) (p : Params)
    (hp : p.BoundsValid) (cs : List (Combiner ℚ)) (i : Fin cs.length) (part : Part)
    (hok : PartOk p part) (v : View) (hv : view sigma p part = v) (h : cs[i] = v.comb) (n : Number v.comb.Acc)
    (hn : n ∈ v.numbers) (pub : Option (List K)) (col : List (P × K × ℚ)) (u : P) (hu : CallerKeepsBounds p u col)
    (a a' : List (K × (Combiner.compound cs).Acc))
    (ha : accumulators B p (Combiner.compound cs).sampling (Combiner.compound cs).create pub col = .ok a)
    (ha' : accumulators B p (Combiner.compound cs).sampling (Combiner.compound cs).create pub (without u col) = .ok a') :
    NumberCovered sigma p.noiseKind n.mech (share part) fun k =>
        partitionTotal (fun acc => n.read (Combiner.readAs v.comb i h acc)) a k
        - partitionTotal (fun acc => n.read (Combiner.readAs v.comb i h acc)) a' k := by
  have fin : ∀ (sens : Except Engine.Err Sens) (s : Sens) (Δ : K → ℚ), sens = .ok s → s.Covers Δ →
      ((∀ x, s.l1 = some x → 0 < x) ∧ ∀ x, s.l2 = some x → 0 < x) →
      NumberCovered sigma p.noiseKind (additive sigma sens) 1 Δ := by
    intro sens s Δ h1 h2 h3
    obtain ⟨x, hx, -⟩ := h2.l1
    obtain ⟨y, hy, -⟩ := h2.l2
    refine ⟨s, x, y, hx, hy, h3.1 x hx, h3.2 y hy, h2, fun _ e d => ?_, fun _ e d => ?_, fun _ t e d => ⟨?_, ?_⟩⟩
    · rw [one_mul]; exact additive_laplace sigma h1 hx
    · rw [one_mul, one_mul]; exact additive_gaussian sigma h1 hy
    · exact additive_laplace_std sigma h1 hx
    · exact additive_gaussian_std sigma h1 hy
  have third : ∀ (l0 linf : ℝ) (Δ : K → ℚ), 0 < l0 → 0 < linf →
      (⟨some l0, some linf, some (l1Sens l0 linf), some (l2Sens l0 linf)⟩ : Sens).Covers Δ →
      NumberCovered sigma p.noiseKind (thirdOf sigma p.noiseKind l0 linf) (1 / 3) Δ := by
    intro l0 linf Δ h1 h2 h3
    refine ⟨_, _, _, rfl, rfl, mul_pos h1 h2, mul_pos (Real.sqrt_pos.mpr h1) h2, h3, fun hk e d => ?_, fun hk e d => ?_,
      fun h => absurd h (by norm_num)⟩
    · rw [hk]; exact thirdOf_laplace sigma _ _ e d
    · rw [hk]; exact thirdOf_gaussian sigma _ _ e d
  cases part with
  | count i0 =>
    simp only [view] at hv
    subst hv
    simp only [List.mem_singleton] at hn
    subst hn
    obtain ⟨b, b', s, h1, h2, h3, h4⟩ := C14_count_sensitivity B hB hK p hp cs i h pub col u hu
    rw [ha] at h1; rw [ha'] at h2
    cases h1; cases h2
    exact fin _ s _ h3 h4 (sensCount_pos h3)
  | privacyIdCount i0 =>
    simp only [view] at hv
    subst hv
    simp only [List.mem_singleton] at hn
    subst hn
    obtain ⟨b, b', s, h1, h2, h3, h4⟩ := C15_privacy_id_count_sensitivity B hB hK p hp hok cs i h pub col u hu
    rw [ha] at h1; rw [ha'] at h2
    cases h1; cases h2
    exact fin _ s _ h3 h4 (sensPid_pos h3)
  | sum i0 =>
    rcases hok with ⟨lo, hi, e1, e2, e3, e4, e5⟩ | ⟨lo, hi, e1, e2, e3, e4, e5, e6, e7⟩
    · simp only [view, e5, Bool.false_eq_true, if_false] at hv
      have g1 : p.minValue.getD 0 = lo := by rw [e1]; rfl
      have g2 : p.maxValue.getD 0 = hi := by rw [e2]; rfl
      rw [g1, g2] at hv
      subst hv
      simp only [List.mem_singleton] at hn
      subst hn
      obtain ⟨b, b', s, h1, h2, h3, h4⟩ := C16_sum_per_value_sensitivity B hB hK p hp lo hi e1 e2 e3 e4 cs i h pub col u hu
      rw [ha] at h1; rw [ha'] at h2
      cases h1; cases h2
      exact fin _ s _ h3 h4 (sensSum_pos h3)
    · have hs : p.sumBoundsSet = true := by simp [Params.sumBoundsSet, e1, e2]
      simp only [view, hs, if_true] at hv
      have g1 : p.minSum.getD 0 = lo := by rw [e1]; rfl
      have g2 : p.maxSum.getD 0 = hi := by rw [e2]; rfl
      rw [g1, g2] at hv
      subst hv
      simp only [List.mem_singleton] at hn
      subst hn
      obtain ⟨b, b', s, h1, h2, h3, h4⟩ := C16_sum_per_partition_sensitivity B hB hK p hp e6 e7 lo hi e5 e1 e2 e3 e4 cs i h
        pub col u hu
      rw [ha] at h1; rw [ha'] at h2
      cases h1; cases h2
      exact fin _ s _ h3 h4 (sensSum_pos h3)
  | mean c0 s0 ns =>
    obtain ⟨lo, hi, e1, e2, e3⟩ := hok
    simp only [view] at hv
    have g1 : p.minValue.getD 0 = lo := by rw [e1]; rfl
    have g2 : p.maxValue.getD 0 = hi := by rw [e2]; rfl
    rw [g1, g2] at hv
    subst hv
    simp only [List.mem_cons, List.not_mem_nil, or_false] at hn
    rcases hn with rfl | rfl
    · obtain ⟨b, b', s, h1, h2, h3, h4⟩ := C17_mean_count_sensitivity B hB hK p hp lo hi cs i h pub col u hu
      rw [ha] at h1; rw [ha'] at h2
      cases h1; cases h2
      exact fin _ s _ h3 h4 (sensCount_pos h3)
    · obtain ⟨b, b', s, h1, h2, h3, h4⟩ := C17_mean_normalized_sum_sensitivity B hB hK p hp lo hi e1 e2 e3 cs i h pub col u hu
      rw [ha] at h1; rw [ha'] at h2
      cases h1; cases h2
      exact fin _ s _ h3 h4 (sensNormalizedSum_pos h3)
  | variance s0 ns =>
    obtain ⟨⟨lo, hi, e1, e2, e3, e4⟩, e5⟩ := hok
    rcases hp with ⟨m, hm, q1, q2, q3⟩ | ⟨l0, linf, hl0, hl, q1, q2, q3⟩
    · rw [e5] at q1; exact absurd q1 (by simp)
    · simp only [view] at hv
      have g1 : p.minValue.getD 0 = lo := by rw [e1]; rfl
      have g2 : p.maxValue.getD 0 = hi := by rw [e2]; rfl
      rw [g1, g2] at hv
      simp only [q2, q3, Option.getD_some, if_neg e3.ne] at hv
      have hne : (squaresInterval lo hi).1 ≠ (squaresInterval lo hi).2 := by
        rcases squares_ne e3 with h | h
        · exact h.ne
        · exact h.ne'
      simp only [if_neg hne] at hv
      subst hv
      simp only [List.cons_append, List.nil_append, List.mem_cons, List.not_mem_nil, or_false] at hn
      obtain ⟨b, b', h1, h2, h3, h4⟩ := C17_variance_count_and_sum_sensitivity B hB hK p l0 linf hl0 hl q1 q2 q3 lo hi e3
        cs i h pub col u hu
      obtain ⟨c, c', h1', h2', h5⟩ := C17_variance_squares_sensitivity B hB hK p l0 linf hl0 hl q1 q2 q3 lo hi e3 e4 cs i h
        pub col u hu
      rw [ha] at h1 h1'; rw [ha'] at h2 h2'
      cases h1; cases h2; cases h1'; cases h2'
      have p0 : (0 : ℝ) < l0 := by exact_mod_cast hl0
      have pl : (0 : ℝ) < linf := by exact_mod_cast hl
      rcases hn with rfl | rfl | rfl
      · exact third _ _ _ p0 pl h3
      · refine third _ _ _ p0 ?_ h4
        rw [meanLinf_eq e3.le]
        have : (0 : ℚ) < (hi - lo) / 2 * linf := mul_pos (by linarith) (by exact_mod_cast hl)
        exact_mod_cast this
      · refine third _ _ _ p0 ?_ h5
        have h6 := squares_linf e3 linf e4
        have h7 : (0 : ℚ) < ((hi - lo) / 2) ^ 2 * linf := by
          have : (0 : ℚ) < (hi - lo) / 2 := by linarith
          have : (0 : ℚ) < linf := by exact_mod_cast hl
          positivity
        exact_mod_cast lt_of_lt_of_le h7 h6
  | thresholding s => exact hok.elim
  | vectorSum s => exact hok.elim
  | quantile s ps => exact hok.elim

/-- With Laplace noise. -/
theorem number_covered (sigma : ℝ → ℝ → ℝ → ℝ) (B : Backend) (hB : B.Lawful) (hK : B.KeyLocal) (p : Params)
    (hp : p.BoundsValid) (hlap : p.noiseKind = .laplace) (cs : List (Combiner ℚ)) (i : Fin cs.length) (part : Part)
    (hok : PartOk p part) (v : View) (hv : view sigma p part = v) (h : cs[i] = v.comb) (n : Number v.comb.Acc)
    (hn : n ∈ v.numbers) (pub : Option (List K)) (col : List (P × K × ℚ)) (u : P) (hu : CallerKeepsBounds p u col)
    (a a' : List (K × (Combiner.compound cs).Acc))
    (ha : accumulators B p (Combiner.compound cs).sampling (Combiner.compound cs).create pub col = .ok a)
    (ha' : accumulators B p (Combiner.compound cs).sampling (Combiner.compound cs).create pub (without u col) = .ok a') :
    ∃ (s : Sens) (x : ℝ), s.l1 = some x ∧ 0 < x ∧
      (∀ e d : ℝ, n.mech ⟨.laplace, none, some e, some d⟩ = .ok (.laplace (x / (share part * e)) x)) ∧
      s.Covers fun k =>
        partitionTotal (fun acc => n.read (Combiner.readAs v.comb i h acc)) a k
        - partitionTotal (fun acc => n.read (Combiner.readAs v.comb i h acc)) a' k := by
  obtain ⟨s, x, y, h1, -, h2, -, h3, h4, -, -⟩ := number_covered_any sigma B hB hK p hp cs i part hok v hv h n hn pub col u hu a a'
    ha ha'
  exact ⟨s, x, h1, h2, h4 hlap, h3⟩

end PDP.EndToEnd
