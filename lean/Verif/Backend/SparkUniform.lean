import Verif.Backend.Sampling
import Mathlib.Data.List.Sublists
import Mathlib.Algebra.BigOperators.Group.List.Basic

/-!
# Sampling per key on Spark is not uniform

`pipeline_backend.py:446-449`: `random.sample(x + y, min(len(x) + len(y), n))` at every step of the reduction.
-/

set_option linter.unusedVariables false

namespace PDP.Backend

open PDP.Engine (MergeTree)

variable {V : Type} [DecidableEq V]

/-! ### Model -/

/-- The possible results of the reduction of the lists `[v]` of one key with their probabilities: every selection of `m` positions
is equally probable for `random.sample(l, m)`; the order of the selected values is not modelled. -/
def sparkDist (n : ℕ) : MergeTree V → List (List V × ℚ)
  | .leaf v => [([v], 1)]
  | .node l r => (sparkDist n l).flatMap fun x => (sparkDist n r).flatMap fun y =>
      let m := min (x.1.length + y.1.length) n
      (List.sublistsLen m (x.1 ++ y.1)).map fun s => (s, x.2 * y.2 / ((x.1.length + y.1.length).choose m : ℚ))

/-! ### Specification -/

/-- Probability of an event. -/
def weight (d : List (List V × ℚ)) (E : List V → Prop) [DecidablePred E] : ℚ := (d.map fun x => if E x.1 then x.2 else 0).sum

/-! ### Lemmas -/

theorem weight_flatMap {A : Type} (l : List A) (f : A → List (List V × ℚ)) (E : List V → Prop) [DecidablePred E] :
    weight (l.flatMap f) E = (l.map fun a => weight (f a) E).sum := by
  induction l with
  | nil => rfl
  | cons a l ih => simp only [List.flatMap_cons, List.map_cons, List.sum_cons, ← ih]; simp [weight]

theorem sum_mul_const {A : Type} (l : List A) (f : A → ℚ) (c : ℚ) : (l.map fun a => f a * c).sum = (l.map f).sum * c := by
  induction l with
  | nil => simp
  | cons a l ih => simp [ih, add_mul]

/-- The results of the reduction are selections of the values of the right size (the relation of C39). -/
theorem sparkDist_mem {n : ℕ} : ∀ {t : MergeTree V} {x : List V × ℚ}, x ∈ sparkDist n t → SparkReduced n t x.1
  | .leaf v, x, h => by
    simp only [sparkDist, List.mem_singleton] at h
    subst h
    exact .leaf v
  | .node l r, x, h => by
    simp only [sparkDist, List.mem_flatMap, List.mem_map, List.mem_sublistsLen] at h
    obtain ⟨a, ha, b, hb, s, ⟨hs, hlen⟩, rfl⟩ := h
    exact .node (sparkDist_mem ha) (sparkDist_mem hb) hs.subperm hlen

theorem sparkDist_one : ∀ (t : MergeTree V), ∀ x ∈ sparkDist 1 t, ∃ v ∈ t.leaves, x.1 = [v] := by
  intro t x hx
  obtain ⟨h1, h2⟩ := sparkReduced_spec 1 le_rfl t x.1 (sparkDist_mem hx)
  have hl : 1 ≤ t.leaves.length := by
    clear hx h1 h2
    induction t with
    | leaf v => simp [MergeTree.leaves]
    | node l r ih1 ih2 => simp only [MergeTree.leaves, List.length_append]; omega
  rw [min_eq_left hl] at h2
  obtain ⟨v, hv⟩ := List.length_eq_one_iff.mp h2
  exact ⟨v, h1.subset (by rw [hv]; simp), hv⟩

theorem weight_node_one (l r : MergeTree V) (E : List V → Prop) [DecidablePred E]
    (hl : weight (sparkDist 1 l) (fun _ => True) = 1) (hr : weight (sparkDist 1 r) (fun _ => True) = 1) :
    weight (sparkDist 1 (.node l r)) E = (weight (sparkDist 1 l) E + weight (sparkDist 1 r) E) / 2 := by
  have step : ∀ x ∈ sparkDist 1 l, ∀ y ∈ sparkDist 1 r,
      weight ((List.sublistsLen (min (x.1.length + y.1.length) 1) (x.1 ++ y.1)).map fun s =>
        (s, x.2 * y.2 / ((x.1.length + y.1.length).choose (min (x.1.length + y.1.length) 1) : ℚ))) E =
      ((if E x.1 then x.2 else 0) * y.2 + x.2 * (if E y.1 then y.2 else 0)) / 2 := by
    intro x hx y hy
    obtain ⟨a, -, ha⟩ := sparkDist_one l x hx
    obtain ⟨b, -, hb⟩ := sparkDist_one r y hy
    rw [ha, hb]
    have h1 : List.sublistsLen 1 [a, b] = [[a], [b]] ∨ List.sublistsLen 1 [a, b] = [[b], [a]] := by
      simp [List.sublistsLen, List.sublistsLenAux]
    simp only [List.length_singleton, List.singleton_append]
    rcases h1 with h1 | h1 <;>
    · rw [show min (1 + 1) 1 = 1 from rfl, h1]
      simp only [weight, List.map_cons, List.map_nil, List.sum_cons, List.sum_nil, add_zero]
      norm_num
      split_ifs <;> ring
  have e1 : weight (sparkDist 1 (.node l r)) E = ((sparkDist 1 l).map fun x => ((sparkDist 1 r).map fun y =>
      ((if E x.1 then x.2 else 0) * y.2 + x.2 * (if E y.1 then y.2 else 0)) / 2).sum).sum := by
    rw [sparkDist, weight_flatMap]
    congr 1
    apply List.map_congr_left
    intro x hx
    rw [weight_flatMap]
    congr 1
    apply List.map_congr_left
    intro y hy
    exact step x hx y hy
  rw [e1]
  have e2 : ∀ x : List V × ℚ, ((sparkDist 1 r).map fun y =>
      ((if E x.1 then x.2 else 0) * y.2 + x.2 * (if E y.1 then y.2 else 0)) / 2).sum =
      ((if E x.1 then x.2 else 0) * weight (sparkDist 1 r) (fun _ => True) + x.2 * weight (sparkDist 1 r) E) / 2 := by
    intro x
    unfold weight
    induction sparkDist 1 r with
    | nil => simp
    | cons y d ih => simp only [List.map_cons, List.sum_cons, ih, if_true]; ring
  simp only [e2, hr, mul_one]
  have e3 : ((sparkDist 1 l).map fun x => ((if E x.1 then x.2 else 0) + x.2 * weight (sparkDist 1 r) E) / 2).sum =
      (weight (sparkDist 1 l) E + weight (sparkDist 1 l) (fun _ => True) * weight (sparkDist 1 r) E) / 2 := by
    generalize weight (sparkDist 1 r) E = c
    unfold weight
    induction sparkDist 1 l with
    | nil => simp
    | cons y d ih => simp only [List.map_cons, List.sum_cons, ih, if_true]; ring
  rw [e3, hl, one_mul]

theorem weight_total : ∀ t : MergeTree V, weight (sparkDist 1 t) (fun _ => True) = 1
  | .leaf v => by simp [sparkDist, weight]
  | .node l r => by
    rw [weight_node_one l r _ (weight_total l) (weight_total r), weight_total l, weight_total r]
    norm_num

theorem weight_absent (t : MergeTree V) {v : V} (h : v ∉ t.leaves) : weight (sparkDist 1 t) (fun s => v ∈ s) = 0 := by
  unfold weight
  apply List.sum_eq_zero
  intro q hq
  obtain ⟨x, hx, rfl⟩ := List.mem_map.mp hq
  obtain ⟨a, ha, hxa⟩ := sparkDist_one t x hx
  rw [if_neg]
  rw [hxa]
  show ¬ v ∈ [a]
  rw [List.mem_singleton]
  rintro rfl
  exact h ha

theorem weight_power (t : MergeTree V) (hn : t.leaves.Nodup) {v : V} (h : v ∈ t.leaves) :
    ∃ d : ℕ, weight (sparkDist 1 t) (fun s => v ∈ s) = 1 / 2 ^ d := by
  induction t with
  | leaf u =>
    simp only [MergeTree.leaves, List.mem_singleton] at h
    subst h
    exact ⟨0, by simp [sparkDist, weight]⟩
  | node l r ih1 ih2 =>
    rw [MergeTree.leaves] at hn h
    obtain ⟨n1, n2, hd⟩ := List.nodup_append.mp hn
    rw [weight_node_one l r _ (weight_total l) (weight_total r)]
    rcases List.mem_append.mp h with h | h
    · obtain ⟨d, hd'⟩ := ih1 n1 h
      refine ⟨d + 1, ?_⟩
      rw [hd', weight_absent r fun h' => hd v h v h' rfl, pow_succ]
      field_simp
      ring
    · obtain ⟨d, hd'⟩ := ih2 n2 h
      refine ⟨d + 1, ?_⟩
      rw [hd', weight_absent l fun h' => hd v h' v h rfl, pow_succ]
      field_simp
      ring

/-! ### C39 -/

/-- C39 (gap): Spark keeps one of `m` distinct values of a key with unequal probabilities, whatever the reduction tree, unless `m` is a
power of two: no value is kept with probability `1 / m`. -/
theorem C39_spark_sample_is_not_uniform (t : MergeTree V) (hn : t.leaves.Nodup) (hm : ∀ d, t.leaves.length ≠ 2 ^ d) (v : V)
    (hv : v ∈ t.leaves) : weight (sparkDist 1 t) (fun s => v ∈ s) ≠ 1 / t.leaves.length := by
  obtain ⟨d, hd⟩ := weight_power t hn hv
  rw [hd]
  intro h
  apply hm d
  have h0 : (t.leaves.length : ℚ) ≠ 0 := by
    intro h0
    have : t.leaves.length = 0 := by exact_mod_cast h0
    rw [List.length_eq_zero_iff.mp this] at hv
    simp at hv
  have h2 : ((2 : ℚ) ^ d) ≠ 0 := by positivity
  rw [div_eq_div_iff h2 h0, one_mul, one_mul] at h
  exact_mod_cast h

/-- C39 (gap): if the values are reduced one after the other, the last one is kept with probability 1/2, however many there are. -/
theorem C39_spark_sample_prefers_last (l : MergeTree V) (v : V) (hv : v ∉ l.leaves) :
    weight (sparkDist 1 (.node l (.leaf v))) (fun s => v ∈ s) = 1 / 2 := by
  rw [weight_node_one l (.leaf v) _ (weight_total l) (weight_total _), weight_absent l hv]
  simp [sparkDist, weight]

/-- Three values: 1/4, 1/4 and 1/2 in place of 1/3. -/
example : (['a', 'b', 'c'].map fun v => weight (sparkDist 1 (.node (.node (.leaf 'a') (.leaf 'b')) (.leaf 'c'))) (fun s => v ∈ s))
    = [1 / 4, 1 / 4, 1 / 2] := by decide +kernel

/-- The hypotheses of the theorem are met by three values. -/
example : let t : MergeTree Char := .node (.node (.leaf 'a') (.leaf 'b')) (.leaf 'c')
    t.leaves.Nodup ∧ (∀ d, t.leaves.length ≠ 2 ^ d) ∧ 'b' ∈ t.leaves := by
  refine ⟨by decide, fun d => ?_, by decide⟩
  show 3 ≠ 2 ^ d
  rcases d with _ | _ | d
  · decide
  · decide
  · rw [pow_add]
    have := Nat.one_le_two_pow (n := d)
    omega

end PDP.Backend
