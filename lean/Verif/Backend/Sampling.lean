import Verif.Histogram.PreAgg
import Verif.Bounding.Props
import Verif.Engine.Combiners
import Mathlib.Tactic.Positivity

/-!
# Sampling per key on Spark and deterministic value sampling

`pipeline_backend.py:446-449` `SparkRDDBackend.sample_fixed_per_key` and `sampling_utils.py:38-51` `ValueSampler`.
-/

set_option linter.unusedVariables false

namespace PDP.Backend

open PDP.Engine (MergeTree)
open PDP.Histogram (pyRound)

/-! ### Model -/

/-- `reduceByKey(lambda x, y: random.sample(x + y, min(len(x) + len(y), n)))` on the lists `[v]` of one key, for a
reduction tree: all the lists it may return.  `random.sample(l, m)` is any selection of `m` positions of `l`. -/
inductive SparkReduced {V : Type} (n : ℕ) : MergeTree V → List V → Prop
  | leaf (v : V) : SparkReduced n (.leaf v) [v]
  | node {l r : MergeTree V} {x y out : List V} : SparkReduced n l x → SparkReduced n r y → out.Subperm (x ++ y) →
      out.length = min (x.length + y.length) n → SparkReduced n (.node l r) out

/-- `pipeline_backend.py:446-449` `sample_fixed_per_key`: the possible results. -/
structure IsSparkSample {K V : Type} [DecidableEq K] (n : ℕ) (col : List (K × V)) (out : List (K × List V)) : Prop where
  nodup : (out.map Prod.fst).Nodup
  keys : ∀ k, k ∈ out.map Prod.fst ↔ k ∈ col.map Prod.fst
  values : ∀ e ∈ out, ∃ t : MergeTree V, t.leaves.Perm (valuesOf e.1 col) ∧ SparkReduced n t e.2

/-- `sampling_utils.py:46-47` `ValueSampler.__init__`; floats are rationals (`2**64 * sampling_rate` is exact for a
float, and so is `round`). -/
def sampleBound (rate : ℚ) : ℤ := pyRound (2 ^ 64 * rate)

/-- `sampling_utils.py:49-51` `keep`; `hash` is `_compute_64bit_hash`. -/
def keep {V : Type} (hash : V → Fin (2 ^ 64)) (rate : ℚ) (v : V) : Bool := ((hash v : ℕ) : ℤ) < sampleBound rate

/-! ### C39 -/

theorem sparkReduced_spec {V : Type} (n : ℕ) (hn : 1 ≤ n) (t : MergeTree V) (out : List V) (h : SparkReduced n t out) :
    out.Subperm t.leaves ∧ out.length = min n t.leaves.length := by
  induction h with
  | leaf v => exact ⟨List.Subperm.refl _, by simp [MergeTree.leaves]; omega⟩
  | node hl hr hs hlen ih1 ih2 =>
    refine ⟨hs.trans (ih1.1.append ih2.1), ?_⟩
    rw [hlen, ih1.2, ih2.2, MergeTree.leaves, List.length_append]
    omega

/-- C39: on Spark, whatever the reduction tree, the order and the random choices, every key occurs once and has
`min n (number of its values)` of its own values, none more often than in the data. -/
theorem C39_spark_sample {K V : Type} [DecidableEq K] (n : ℕ) (hn : 1 ≤ n) (col : List (K × V)) (out : List (K × List V))
    (h : IsSparkSample n col out) : IsSampling n col out := by
  refine ⟨h.nodup, h.keys, fun e he => ?_, fun e he => ?_⟩
  · obtain ⟨t, ht, hr⟩ := h.values e he
    exact (sparkReduced_spec n hn t e.2 hr).1.trans ht.subperm
  · obtain ⟨t, ht, hr⟩ := h.values e he
    rw [(sparkReduced_spec n hn t e.2 hr).2, ht.length_eq]

/-- C39: every sample of the right size is a possible result for some reduction. -/
theorem C39_spark_sample_two_values {V : Type} (a b : V) :
    SparkReduced 1 (.node (.leaf a) (.leaf b)) [a] ∧ SparkReduced 1 (.node (.leaf a) (.leaf b)) [b] :=
  ⟨.node (.leaf a) (.leaf b) ((List.sublist_append_left [a] [b]).subperm) rfl,
   .node (.leaf a) (.leaf b) ((List.sublist_append_right [a] [b]).subperm) rfl⟩

/-- C39 (gap): for `n = 0` Spark keeps the value of a key with a single value, while the local backend keeps none. -/
theorem C39_spark_sample_zero {V : Type} (v : V) (rng : Rng) :
    (∀ out, SparkReduced 0 (.leaf v) out → out = [v]) ∧
    localSample rng "s" [(1, v)] 0 = [(1, takeIndices [v] (rng.pick "s" 1 1 0))] ∧ (rng.pick "s" 1 1 0) = [] := by
  refine ⟨fun out h => by cases h; rfl, ?_, ?_⟩
  · simp [localSample, dictGroup, dictAppend]
  · exact List.eq_nil_of_length_eq_zero (rng.length "s" 1 1 0 (by omega))

example : IsSparkSample 2 [(1, 'a'), (2, 'b'), (1, 'c'), (1, 'd')] [(2, ['b']), (1, ['d', 'a'])] := by
  refine ⟨by decide, ?_, ?_⟩
  · intro k; simp; tauto
  · intro e he
    simp only [List.mem_cons, List.not_mem_nil, or_false] at he
    rcases he with rfl | rfl
    · exact ⟨.leaf 'b', by decide, .leaf _⟩
    · refine ⟨.node (.node (.leaf 'a') (.leaf 'c')) (.leaf 'd'), by decide, ?_⟩
      exact .node (x := ['c', 'a']) (.node (.leaf _) (.leaf _) (by decide) rfl) (.leaf _) (by decide) rfl

/-! ### C41 -/

theorem pyRound_dist (x : ℚ) : |(pyRound x : ℚ) - x| ≤ 1 / 2 := by
  have h1 := Int.floor_le x
  have h2 := Int.lt_floor_add_one x
  unfold pyRound
  dsimp only
  rw [abs_le]
  split
  · constructor <;> linarith
  · split
    · push_cast; constructor <;> linarith
    · split <;> push_cast <;> constructor <;> linarith

theorem pyRound_mono {x y : ℚ} (h : x ≤ y) : pyRound x ≤ pyRound y := by
  by_contra hlt
  have hlt : pyRound y < pyRound x := by omega
  have hx := abs_le.mp (pyRound_dist x)
  have hy := abs_le.mp (pyRound_dist y)
  have hge : (pyRound y : ℚ) + 1 ≤ pyRound x := by exact_mod_cast hlt
  -- both are at distance exactly 1/2 and the numbers are equal
  have hxy : x = y := by linarith [hx.2, hy.1]
  subst hxy
  omega

theorem pyRound_int (z : ℤ) : pyRound (z : ℚ) = z := by
  unfold pyRound
  simp

/-- C41: the number of kept hash values is the rate times 2^64 rounded to the nearest integer, and to the even one if
there are two. -/
theorem C41_rounding (r : ℚ) :
    (∀ z : ℤ, |(sampleBound r : ℚ) - 2 ^ 64 * r| ≤ |(z : ℚ) - 2 ^ 64 * r|) ∧
    (∀ z : ℤ, z ≠ sampleBound r → |(z : ℚ) - 2 ^ 64 * r| = |(sampleBound r : ℚ) - 2 ^ 64 * r| → Even (sampleBound r)) := by
  unfold sampleBound
  generalize (2 ^ 64 * r : ℚ) = x
  have hd := pyRound_dist x
  have hfar : ∀ z : ℤ, z ≠ pyRound x → 1 ≤ |(z : ℚ) - pyRound x| := by
    intro z hz
    have : (1 : ℤ) ≤ |z - pyRound x| := Int.one_le_abs (sub_ne_zero.mpr hz)
    exact_mod_cast this
  have htri : ∀ z : ℤ, |(z : ℚ) - pyRound x| ≤ |(z : ℚ) - x| + |(pyRound x : ℚ) - x| := by
    intro z
    have := abs_sub_le (z : ℚ) x (pyRound x)
    rwa [abs_sub_comm x] at this
  refine ⟨?_, ?_⟩
  · intro z
    by_cases hz : z = pyRound x
    · rw [hz]
    · linarith [hfar z hz, htri z]
  · intro z hz he
    have hhalf : |(pyRound x : ℚ) - x| = 1 / 2 := by linarith [hfar z hz, htri z]
    have h1 := Int.floor_le x
    have h2 := Int.lt_floor_add_one x
    revert hhalf
    unfold pyRound
    dsimp only
    by_cases c1 : x - ⌊x⌋ < 1 / 2
    · rw [if_pos c1]
      intro hh
      exfalso
      rw [abs_sub_comm, abs_of_nonneg (by linarith)] at hh
      linarith
    · rw [if_neg c1]
      by_cases c2 : 1 / 2 < x - ⌊x⌋
      · rw [if_pos c2]
        intro hh
        exfalso
        push_cast at hh
        rw [abs_of_nonneg (by linarith)] at hh
        linarith
      · rw [if_neg c2]
        intro _
        by_cases c3 : ⌊x⌋ % 2 = 0
        · rw [if_pos c3]; exact Int.even_iff.mpr c3
        · rw [if_neg c3]; rw [Int.even_iff]; omega

/-- C41: a value kept at some rate is kept at every larger rate. -/
theorem C41_monotone {V : Type} (hash : V → Fin (2 ^ 64)) (r s : ℚ) (h : r ≤ s) (v : V) (hk : keep hash r v = true) :
    keep hash s v = true := by
  unfold keep sampleBound at *
  have := pyRound_mono (show (2 ^ 64 : ℚ) * r ≤ 2 ^ 64 * s by linarith)
  simp only [decide_eq_true_eq] at *
  omega

/-- C41: rate 1 keeps every value and rate 0 keeps none. -/
theorem C41_ends {V : Type} (hash : V → Fin (2 ^ 64)) (v : V) : keep hash 1 v = true ∧ keep hash 0 v = false := by
  have h1 : sampleBound 1 = 2 ^ 64 := by
    have := pyRound_int (2 ^ 64)
    unfold sampleBound
    push_cast at this
    rw [mul_one]; exact this
  have h0 : sampleBound 0 = 0 := by
    have := pyRound_int 0
    unfold sampleBound
    push_cast at this
    rw [mul_zero]; exact this
  have := (hash v).isLt
  unfold keep
  rw [h1, h0]
  simp only [decide_eq_true_eq, decide_eq_false_iff_not]
  omega

/-- C41: equal hashes give equal decisions; in particular the decision for a value never changes. -/
theorem C41_deterministic {V : Type} (hash : V → Fin (2 ^ 64)) (r : ℚ) (v w : V) (h : hash v = hash w) :
    keep hash r v = keep hash r w := by
  unfold keep; rw [h]

theorem card_lt (m : ℕ) (n : ℕ) (h : m ≤ n) : ((List.finRange n).filter fun x : Fin n => (x : ℕ) < m).length = m := by
  have h1 : ((List.finRange n).filter fun x : Fin n => (x : ℕ) < m).length
      = (((List.finRange n).map Fin.val).filter fun x => x < m).length := by
    rw [List.filter_map, List.length_map]; rfl
  rw [h1, List.map_coe_finRange_eq_range]
  obtain ⟨d, rfl⟩ := Nat.exists_eq_add_of_le h
  rw [List.range_add, List.filter_append, List.length_append]
  have a : (List.range m).filter (fun x => decide (x < m)) = List.range m := by
    rw [List.filter_eq_self]
    intro x hx; simpa using hx
  have b : ((List.range d).map fun x => m + x).filter (fun x => decide (x < m)) = [] := by
    rw [List.filter_eq_nil_iff]
    intro x hx
    obtain ⟨y, -, rfl⟩ := List.mem_map.mp hx
    simp
  rw [a, b]; simp

/-- C41: among all 2^64 hash values the fraction that is kept differs from the rate by at most 2^-65. -/
theorem C41_kept_fraction (r : ℚ) (h0 : 0 ≤ r) (h1 : r ≤ 1) :
    |(((List.finRange (2 ^ 64)).filter fun x => keep id r x).length : ℚ) / 2 ^ 64 - r| ≤ 1 / 2 ^ 65 := by
  have hb0 : 0 ≤ sampleBound r := by
    have := pyRound_mono (show (0 : ℚ) ≤ 2 ^ 64 * r by positivity)
    have h := pyRound_int 0
    push_cast at h
    rw [h] at this; exact this
  have hb1 : sampleBound r ≤ 2 ^ 64 := by
    have := pyRound_mono (show (2 ^ 64 : ℚ) * r ≤ 2 ^ 64 by nlinarith)
    have h' : pyRound ((2 : ℚ) ^ 64) = 2 ^ 64 := by
      have h := pyRound_int (2 ^ 64)
      push_cast at h
      norm_num
      exact h
    rw [h'] at this; exact this
  obtain ⟨m, hm⟩ := Int.eq_ofNat_of_zero_le hb0
  have hml : m ≤ 2 ^ 64 := by rw [hm] at hb1; exact_mod_cast hb1
  have hlen : ((List.finRange (2 ^ 64)).filter fun x => keep id r x).length = m := by
    rw [← card_lt m (2 ^ 64) hml]
    congr 2
    funext x
    unfold keep
    rw [hm]
    simp
  rw [hlen]
  have hd := abs_le.mp (pyRound_dist (2 ^ 64 * r))
  have hmq : (pyRound (2 ^ 64 * r) : ℚ) = m := by
    have : pyRound (2 ^ 64 * r) = (m : ℤ) := hm
    rw [this]; rfl
  rw [hmq] at hd
  rw [abs_le]
  constructor <;> · norm_num at hd ⊢; linarith [hd.1, hd.2]

example : sampleBound (1 / 2) = 2 ^ 63 ∧ keep (V := ℕ) (fun v => Fin.ofNat _ (v * 2 ^ 60)) (1 / 2) 7 = true ∧
    keep (V := ℕ) (fun v => Fin.ofNat _ (v * 2 ^ 60)) (1 / 2) 8 = false := by decide +kernel

end PDP.Backend
