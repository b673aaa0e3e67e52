import Verif.Engine.Spec
import Mathlib.Algebra.Order.BigOperators.Group.List
import Mathlib.Algebra.BigOperators.Ring.List
import Mathlib.Algebra.Order.Ring.Abs
import Mathlib.Algebra.Order.Field.Basic
import Mathlib.Tactic.Linarith
import Mathlib.Tactic.Positivity
import Mathlib.Tactic.Push

/-! # Lemmas about the engine: one user's entries -/

set_option linter.unusedSectionVars false
set_option linter.unusedVariables false

namespace PDP.Engine

open PDP

variable {P K V A : Type} [DecidableEq P] [DecidableEq K]

/-! ### sums over the values of keys -/

theorem partitionTotal_append (μ : A → ℚ) (a b : List (K × A)) (k : K) :
    partitionTotal μ (a ++ b) k = partitionTotal μ a k + partitionTotal μ b k := by
  simp [partitionTotal, valuesOf_append]

/-- Removing the entries of `u` lowers the total by the entries of `u`. -/
theorem total_split (μ : A → ℚ) (L : List ((P × K) × A)) (u : P) (k : K) :
    partitionTotal μ (L.map fun e => (e.1.2, e.2)) k
      - partitionTotal μ ((L.filter fun e => e.1.1 ≠ u).map fun e => (e.1.2, e.2)) k
    = partitionTotal μ ((L.filter fun e => e.1.1 = u).map fun e => (e.1.2, e.2)) k := by
  induction L with
  | nil => simp [partitionTotal]
  | cons e L ih =>
    unfold partitionTotal at *
    by_cases hu : e.1.1 = u
    · simp only [List.map_cons, List.filter_cons, hu, ne_eq, not_true_eq_false, decide_false,
        Bool.false_eq_true, if_false, decide_true, if_true, valuesOf_cons]
      by_cases hk : e.1.2 = k
      · simp only [hk, if_true, List.map_cons, List.sum_cons]; linarith
      · simp only [hk, if_false]; exact ih
    · simp only [List.map_cons, List.filter_cons, hu, ne_eq, not_false_eq_true, decide_true, if_true,
        decide_false, Bool.false_eq_true, if_false, valuesOf_cons]
      by_cases hk : e.1.2 = k
      · simp only [hk, if_true, List.map_cons, List.sum_cons]; linarith
      · simp only [hk, if_false]; exact ih

theorem total_map (μ : A → ℚ) (f : List V → A) (E : List (K × List V)) (k : K) :
    partitionTotal μ (E.map fun e => (e.1, f e.2)) k = partitionTotal (fun vs => μ (f vs)) E k := by
  unfold partitionTotal
  rw [valuesOf_map_values]; simp [Function.comp_def]

/-- Changes are confined to the keys of the entries. -/
theorem changed_count {X : Type} (E : List (K × X)) (μ : X → ℚ) (ks : List K) (hks : ks.Nodup) :
    (ks.filter fun k => partitionTotal μ E k ≠ 0).length ≤ (E.map Prod.fst).dedup.length := by
  refine (List.subperm_of_subset (hks.filter _) ?_).length_le
  intro k hk
  simp only [List.mem_filter, decide_eq_true_eq] at hk
  rw [List.mem_dedup, ← valuesOf_ne_nil]
  intro h
  exact hk.2 (by simp [partitionTotal, h])

theorem abs_sum_le (l : List ℚ) : |l.sum| ≤ (l.map abs).sum := by
  induction l with
  | nil => simp
  | cons a l ih => simp only [List.sum_cons, List.map_cons]; exact (abs_add_le _ _).trans (by linarith)

theorem abs_total_le {X : Type} (E : List (K × X)) (μ : X → ℚ) (k : K) :
    |partitionTotal μ E k| ≤ partitionTotal (fun x => |μ x|) E k := by
  unfold partitionTotal
  refine (abs_sum_le _).trans (le_of_eq ?_)
  simp [Function.comp_def]

theorem total_nonneg {X : Type} (E : List (K × X)) (μ : X → ℚ) (h : ∀ x, 0 ≤ μ x) (k : K) :
    0 ≤ partitionTotal μ E k :=
  List.sum_nonneg (by simp only [List.mem_map]; rintro _ ⟨x, -, rfl⟩; exact h x)

theorem total_le_total {X : Type} (E : List (K × X)) (μ ν : X → ℚ)
    (h : ∀ e ∈ E, μ e.2 ≤ ν e.2) (k : K) : partitionTotal μ E k ≤ partitionTotal ν E k := by
  unfold partitionTotal
  apply List.sum_le_sum
  intro x hx
  exact h _ (mem_valuesOf.mp hx)

/-- The totals over distinct keys sum up to at most the total of all entries. -/
theorem sum_totals_le {X : Type} (E : List (K × X)) (μ : X → ℚ) (h : ∀ x, 0 ≤ μ x) (ks : List K)
    (hks : ks.Nodup) : (ks.map fun k => partitionTotal μ E k).sum ≤ (E.map fun e => μ e.2).sum := by
  induction E with
  | nil => simp [partitionTotal]
  | cons e E ih =>
    have h1 : ∀ k, partitionTotal μ (e :: E) k = (if e.1 = k then μ e.2 else 0) + partitionTotal μ E k := by
      intro k
      unfold partitionTotal
      rw [valuesOf_cons]; split <;> simp
    simp only [h1, List.sum_map_add, List.map_cons, List.sum_cons]
    have h2 : (ks.map fun k => if e.1 = k then μ e.2 else 0).sum ≤ μ e.2 := by
      clear ih h1
      induction ks with
      | nil => simpa using h e.2
      | cons k ks ih =>
        rw [List.nodup_cons] at hks
        simp only [List.map_cons, List.sum_cons]
        by_cases hk : e.1 = k
        · have : (ks.map fun k => if e.1 = k then μ e.2 else 0).sum = 0 := by
            apply List.sum_eq_zero
            simp only [List.mem_map]
            rintro _ ⟨k', hk', rfl⟩
            rw [if_neg]; rintro rfl; exact hks.1 (hk ▸ hk')
          rw [this, if_pos hk]; simp
        · rw [if_neg hk, zero_add]; exact ih hks.2
    linarith

/-! ### the declared sensitivities -/

theorem mkSens_pair {a b : ℝ} (ha : 0 < a) (hb : 0 < b) :
    mkSens (some a) (some b) none none = .ok ⟨some a, some b, some (l1Sens a b), some (l2Sens a b)⟩ := by
  simp [mkSens, positiveOrNone, ha, hb]

theorem mkSens_norms {a b : ℝ} (ha : 0 < a) (hb : 0 < b) :
    mkSens none none (some a) (some b) = .ok ⟨none, none, some a, some b⟩ := by
  simp [mkSens, positiveOrNone, ha, hb]

theorem mkSens_pair_nonpos {a b : ℝ} (hb : b ≤ 0) (l1 l2 : Option ℝ) :
    mkSens (some a) (some b) l1 l2 = .error .valueError := by
  simp [mkSens, positiveOrNone, not_lt.mpr hb]

theorem sum_le_of_changed (ks : List K) (f : K → ℚ) (P : K → Bool) (c : ℚ) (hc : ∀ k ∈ ks, f k ≤ c)
    (hP : ∀ k ∈ ks, P k = false → f k = 0) :
    (ks.map f).sum ≤ (ks.filter P).length * c := by
  induction ks with
  | nil => simp
  | cons k ks ih =>
    have ih := ih (fun k hk => hc k (by simp [hk])) (fun k hk => hP k (by simp [hk]))
    simp only [List.map_cons, List.sum_cons, List.filter_cons]
    cases hk : P k with
    | true =>
      simp only [if_true, List.length_cons]; push_cast
      have := hc k (by simp); linarith
    | false =>
      have := hP k (by simp) hk
      simp only [Bool.false_eq_true, if_false]; linarith

/-- Number of changed partitions and largest change determine all four sensitivities. -/
theorem covers_pair {l0 linf : ℚ} {Δ : K → ℚ} (h1 : 0 < l0) (h2 : 0 < linf)
    (hn : ∀ ks : List K, ks.Nodup → ((ks.filter fun k => Δ k ≠ 0).length : ℚ) ≤ l0)
    (hm : ∀ k, |Δ k| ≤ linf) :
    ∃ s, mkSens (some (l0 : ℝ)) (some (linf : ℝ)) none none = .ok s ∧ s.Covers Δ := by
  refine ⟨_, mkSens_pair (by exact_mod_cast h1) (by exact_mod_cast h2), ?_, ?_, ?_, ?_⟩
  · rintro x hx ks hks
    simp only [Option.some.injEq] at hx; subst hx
    exact_mod_cast hn ks hks
  · rintro x hx k
    simp only [Option.some.injEq] at hx; subst hx
    exact_mod_cast hm k
  · refine ⟨_, rfl, fun ks hks => ?_⟩
    have := sum_le_of_changed ks (fun k => |Δ k|) (fun k => Δ k ≠ 0) linf (fun k _ => hm k)
      (fun k _ h => by simpa using h)
    have h3 : (((ks.filter fun k => Δ k ≠ 0).length : ℚ)) * linf ≤ l0 * linf :=
      mul_le_mul_of_nonneg_right (hn ks hks) h2.le
    unfold l1Sens
    exact_mod_cast this.trans h3
  · refine ⟨_, rfl, fun ks hks => ?_⟩
    have := sum_le_of_changed ks (fun k => Δ k ^ 2) (fun k => Δ k ≠ 0) (linf ^ 2)
      (fun k _ => sq_le_sq' (abs_le.mp (hm k)).1 (abs_le.mp (hm k)).2) (fun k _ h => by simpa using h)
    have h3 : (((ks.filter fun k => Δ k ≠ 0).length : ℚ)) * linf ^ 2 ≤ l0 * linf ^ 2 :=
      mul_le_mul_of_nonneg_right (hn ks hks) (sq_nonneg _)
    unfold l2Sens
    rw [show Real.sqrt (l0 : ℝ) * (linf : ℝ) = Real.sqrt ((l0 : ℝ) * (linf : ℝ) ^ 2) by
      rw [Real.sqrt_mul (by exact_mod_cast h1.le), Real.sqrt_sq (by exact_mod_cast h2.le)]]
    exact Real.sqrt_le_sqrt (by exact_mod_cast this.trans h3)

theorem sum_sq_le_sq_sum (l : List ℚ) : (l.map fun x => x ^ 2).sum ≤ ((l.map fun x => |x|).sum) ^ 2 := by
  induction l with
  | nil => simp
  | cons a l ih =>
    simp only [List.map_cons, List.sum_cons]
    have h1 : 0 ≤ (l.map fun x => |x|).sum :=
      List.sum_nonneg (by simp only [List.mem_map]; rintro _ ⟨x, -, rfl⟩; exact abs_nonneg x)
    have h2 := abs_nonneg a
    nlinarith [sq_abs a, mul_nonneg h1 h2]

/-- A bound on the sum of changes is an L1 and an L2 sensitivity. -/
theorem covers_norms {c : ℚ} {Δ : K → ℚ} (h : 0 < c)
    (hs : ∀ ks : List K, ks.Nodup → (ks.map fun k => |Δ k|).sum ≤ c) :
    ∃ s, mkSens none none (some (c : ℝ)) (some (c : ℝ)) = .ok s ∧ s.Covers Δ := by
  refine ⟨_, mkSens_norms (by exact_mod_cast h) (by exact_mod_cast h), by simp, by simp,
    ⟨_, rfl, fun ks hks => by exact_mod_cast hs ks hks⟩, ⟨_, rfl, fun ks hks => ?_⟩⟩
  have h1 := sum_sq_le_sq_sum (ks.map Δ)
  simp only [List.map_map, Function.comp_def] at h1
  have h2 := hs ks hks
  have h3 : 0 ≤ (ks.map fun k => |Δ k|).sum :=
    List.sum_nonneg (by simp only [List.mem_map]; rintro _ ⟨x, -, rfl⟩; exact abs_nonneg _)
  apply Real.sqrt_le_iff.mpr
  refine ⟨by exact_mod_cast h.le, ?_⟩
  have : (ks.map fun k => Δ k ^ 2).sum ≤ c ^ 2 := h1.trans (pow_le_pow_left₀ h3 h2 2)
  exact_mod_cast this

/-- With changes of at most one, a bound `m` on the sum of changes gives `sqrt m` as L2 sensitivity. -/
theorem covers_unit {m : ℚ} {Δ : K → ℚ} (h : 0 < m) (h1 : ∀ k, |Δ k| ≤ 1)
    (hs : ∀ ks : List K, ks.Nodup → (ks.map fun k => |Δ k|).sum ≤ m) :
    ∃ s, mkSens none none (some (m : ℝ)) (some (Real.sqrt m)) = .ok s ∧ s.Covers Δ := by
  have hm : (0 : ℝ) < m := by exact_mod_cast h
  refine ⟨_, mkSens_norms hm (Real.sqrt_pos.mpr hm), by simp, by simp,
    ⟨_, rfl, fun ks hks => by exact_mod_cast hs ks hks⟩, ⟨_, rfl, fun ks hks => ?_⟩⟩
  apply Real.sqrt_le_sqrt
  have : (ks.map fun k => Δ k ^ 2).sum ≤ (ks.map fun k => |Δ k|).sum := by
    apply List.sum_le_sum
    intro k _
    have := h1 k; have h0 := abs_nonneg (Δ k)
    nlinarith [sq_abs (Δ k)]
  exact_mod_cast this.trans (hs ks hks)

end PDP.Engine
