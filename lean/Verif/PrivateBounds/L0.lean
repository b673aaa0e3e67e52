import Verif.PrivateBounds.Exponential
import Verif.Histogram.PreAgg

/-!
# Property C30: private choice of the bound on contributed partitions

Model of `private_contribution_bounds.py:27-176` and `dp_engine.py:452-504`.
-/

set_option linter.unusedSectionVars false
set_option linter.unusedVariables false

namespace PDP.PrivateBounds

open PDP.Engine (Err)
open PDP.Histogram

variable {P K V : Type} [DecidableEq P] [DecidableEq K]

/-- `CalculatePrivateContributionBoundsParams`: the upper bound on the result, the budget of the calculation, and
`std k`, the noise deviation of a count for `max_partitions_contributed = k` (`dp_computations.py:368-387`, a
function of the aggregation parameters and `k` only). -/
structure BoundsParams where
  upperBound : ℕ
  eps : ℝ
  std : ℕ → ℝ

/-- `private_contribution_bounds.py:132-134` `_max_partitions_contributed_best_upper_bound`. -/
def bestBound (params : BoundsParams) (partitions : ℕ) : ℕ := min params.upperBound partitions

/-- `private_contribution_bounds.py:164-176` `_l0_impact_dropped`. -/
def impactDropped (bound : ℕ) (bins : List Bin) (k : ℕ) : ℚ :=
  (bins.map fun b : Bin => max (min b.lower (bound : ℚ) - (k : ℚ)) 0 * (b.count : ℚ)).sum

/-- `private_contribution_bounds.py:150-162` `_l0_impact_noise`. -/
def impactNoise (params : BoundsParams) (partitions : ℕ) (k : ℕ) : ℝ := partitions * params.std k

/-- `private_contribution_bounds.py:90-176` `L0ScoringFunction`: `score`, `global_sensitivity`,
`is_monotonic`. -/
noncomputable def l0Scoring (params : BoundsParams) (partitions : ℕ) (bins : List Bin) : Scoring ℕ where
  score := fun k => -((1 / 2) * impactNoise params partitions k +
    (1 - 1 / 2) * ((impactDropped (bestBound params partitions) bins k : ℚ) : ℝ))
  sensitivity := bestBound params partitions
  monotonic := true

/-- The histogram given to the calculation: `dp_engine.py:491-496`, rows in other partitions are dropped first. -/
def l0Of (O : Ops) (parts : List K) (rows : List (P × K × V)) : List Bin :=
  (datasetHistograms O (rows.filter fun r => r.2.1 ∈ parts)).l0

/-- `private_contribution_bounds.py:73-81` `_calculate_l0` on the inputs collected at 50-72: the candidates and
their probabilities.  The number of partitions is the number of distinct elements of `partitions`. -/
noncomputable def privateL0 (expf : ℝ → ℝ) (O : Ops) (params : BoundsParams) (parts : List K) (rows : List (P × K × V)) :
    List ℕ × Except Err (List ℝ) :=
  let n := (O.distinct parts).length
  let scoring := l0Scoring params n (l0Of O parts rows)
  let candidates := possibleBounds (bestBound params n)
  (candidates, probabilities expf scoring params.eps candidates)

/-! ### Lemmas -/

/-- The dropped data as a sum over ids. -/
theorem impactDropped_eq (bound k : ℕ) (xs : List ℕ) (bins : List Bin) (h : IsCountHistogram xs bins) :
    impactDropped bound bins k = (xs.map fun x : ℕ => max (min ((binBounds x).1 : ℚ) bound - k) 0).sum := by
  rw [← h.sum_bins]
  unfold impactDropped
  congr 1
  apply List.map_congr_left
  intro b hb
  have h1 : ((inBin intBounds b.lower xs).map fun x : ℕ => max (min ((binBounds x).1 : ℚ) bound - k) 0)
      = (inBin intBounds b.lower xs).map fun _ => max (min b.lower bound - k) 0 := by
    apply List.map_congr_left
    intro x hx
    have : (intBounds x).1 = b.lower := by simpa using (List.mem_filter.mp hx).2
    rw [← this]; rfl
  rw [h1, List.map_const', List.sum_replicate, ← h.count b hb, nsmul_eq_mul, mul_comm]

theorem IsDistinct.length_eq {α : Type} {a x y : List α} (h1 : IsDistinct a x) (h2 : IsDistinct a y) : x.length = y.length :=
  (IsDistinct.perm h1 h2 fun _ => Iff.rfl).length_eq

/-- The ids of a dataset are those without `p`, and `p` itself if it occurs. -/
theorem allIds_remove (rows : List (P × K × V)) (p : P) :
    (allIds rows).Perm ((if p ∈ allIds rows then [p] else []) ++ allIds (rows.filter fun r => r.1 ≠ p)) := by
  apply perm_of_nodup (List.nodup_dedup _)
  · by_cases hp : p ∈ allIds rows
    · rw [if_pos hp, List.singleton_append, List.nodup_cons]
      refine ⟨?_, List.nodup_dedup _⟩
      intro h
      simp only [allIds, List.mem_dedup, List.mem_map, List.mem_filter, decide_eq_true_eq] at h
      obtain ⟨r, ⟨-, h1⟩, h2⟩ := h
      exact h1 h2
    · rw [if_neg hp]; exact List.nodup_dedup _
  · intro q
    by_cases hp : p ∈ allIds rows
    · rw [if_pos hp]
      simp only [allIds, List.mem_dedup, List.mem_map, List.mem_filter, decide_eq_true_eq, List.singleton_append,
        List.mem_cons] at hp ⊢
      constructor
      · rintro ⟨r, hr, rfl⟩
        by_cases h : r.1 = p
        · exact Or.inl h
        · exact Or.inr ⟨r, ⟨hr, h⟩, rfl⟩
      · rintro (rfl | ⟨r, ⟨hr, -⟩, rfl⟩)
        · exact hp
        · exact ⟨r, hr, rfl⟩
    · rw [if_neg hp]
      simp only [allIds, List.mem_dedup, List.mem_map, List.mem_filter, decide_eq_true_eq, List.nil_append] at hp ⊢
      constructor
      · rintro ⟨r, hr, rfl⟩
        exact ⟨r, ⟨hr, fun h => hp ⟨r, hr, h⟩⟩, rfl⟩
      · rintro ⟨r, ⟨hr, -⟩, rfl⟩; exact ⟨r, hr, rfl⟩

theorem partitionsOfId_remove (rows : List (P × K × V)) (p q : P) (h : q ≠ p) :
    partitionsOfId (rows.filter fun r => r.1 ≠ p) q = partitionsOfId rows q := by
  unfold partitionsOfId
  rw [List.filter_filter]
  congr 3
  apply List.filter_congr
  intro r _
  rw [Bool.eq_iff_iff]
  simp only [Bool.and_eq_true, decide_eq_true_eq]
  constructor
  · exact fun h => h.1
  · rintro rfl; exact ⟨rfl, h⟩

theorem filter_comm (rows : List (P × K × V)) (p : P) (parts : List K) :
    (rows.filter fun r => r.1 ≠ p).filter (fun r => r.2.1 ∈ parts) = (rows.filter fun r => r.2.1 ∈ parts).filter fun r => r.1 ≠ p := by
  rw [List.filter_filter, List.filter_filter]
  apply List.filter_congr
  intro r _
  rw [Bool.and_comm]

/-- Removing an id lowers the dropped data by at most `bound - k`. -/
theorem impactDropped_remove (O O' : Ops) (hO : O.Lawful) (hO' : O'.Lawful) (parts : List K) (rows : List (P × K × V)) (p : P)
    (bound k : ℕ) :
    0 ≤ impactDropped bound (l0Of O parts rows) k - impactDropped bound (l0Of O' parts (rows.filter fun r => r.1 ≠ p)) k ∧
    impactDropped bound (l0Of O parts rows) k - impactDropped bound (l0Of O' parts (rows.filter fun r => r.1 ≠ p)) k
      ≤ max ((bound : ℚ) - k) 0 := by
  unfold l0Of
  rw [filter_comm]
  generalize rows.filter (fun r => r.2.1 ∈ parts) = rs
  rw [impactDropped_eq _ _ _ _ (C33_dataset_histograms O hO rs).l0,
    impactDropped_eq _ _ _ _ (C33_dataset_histograms O' hO' (rs.filter fun r => r.1 ≠ p)).l0]
  have h1 := ((allIds_remove rs p).map (partitionsOfId rs)).map fun x : ℕ => max (min ((binBounds x).1 : ℚ) bound - k) 0
  rw [h1.sum_eq, List.map_append, List.map_append, List.sum_append]
  have h2 : (allIds (rs.filter fun r => r.1 ≠ p)).map (partitionsOfId rs)
      = (allIds (rs.filter fun r => r.1 ≠ p)).map (partitionsOfId (rs.filter fun r => r.1 ≠ p)) := by
    apply List.map_congr_left
    intro q hq
    rw [partitionsOfId_remove]
    simp only [allIds, List.mem_dedup, List.mem_map, List.mem_filter, decide_eq_true_eq] at hq
    obtain ⟨r, ⟨-, h⟩, rfl⟩ := hq
    exact h
  rw [h2, add_sub_cancel_right]
  by_cases hp : p ∈ allIds rs
  · rw [if_pos hp]
    simp only [List.map_cons, List.map_nil, List.sum_cons, List.sum_nil, add_zero]
    refine ⟨le_max_right _ _, ?_⟩
    apply max_le_max _ le_rfl
    have := min_le_right (((binBounds (partitionsOfId rs p)).1 : ℕ) : ℚ) (bound : ℚ)
    linarith
  · rw [if_neg hp]
    simp

/-! ### C30 -/

/-- **C30.** Removing one privacy id never lowers the score of any candidate and raises it by at most half of the
declared sensitivity, hence the score changes by at most the declared sensitivity, in one direction. -/
theorem C30_score_sensitivity (O O' : Ops) (hO : O.Lawful) (hO' : O'.Lawful) (params : BoundsParams) (n : ℕ) (parts : List K)
    (rows : List (P × K × V)) (p : P) (k : ℕ) :
    let f := l0Scoring params n (l0Of O parts rows)
    let g := l0Scoring params n (l0Of O' parts (rows.filter fun r => r.1 ≠ p))
    f.score k ≤ g.score k ∧ g.score k - f.score k ≤ f.sensitivity / 2 ∧ f.sensitivity = g.sensitivity := by
  intro f g
  obtain ⟨h1, h2⟩ := impactDropped_remove O O' hO hO' parts rows p (bestBound params n) k
  have h1' : (0 : ℝ) ≤ ((impactDropped (bestBound params n) (l0Of O parts rows) k : ℚ) : ℝ)
      - ((impactDropped (bestBound params n) (l0Of O' parts (rows.filter fun r => r.1 ≠ p)) k : ℚ) : ℝ) := by
    exact_mod_cast h1
  have h3 : max ((bestBound params n : ℚ) - k) 0 ≤ bestBound params n := by
    apply max_le
    · have : (0 : ℚ) ≤ k := by positivity
      linarith
    · positivity
  have h2' : ((impactDropped (bestBound params n) (l0Of O parts rows) k : ℚ) : ℝ)
      - ((impactDropped (bestBound params n) (l0Of O' parts (rows.filter fun r => r.1 ≠ p)) k : ℚ) : ℝ) ≤ bestBound params n := by
    exact_mod_cast le_trans h2 h3
  refine ⟨?_, ?_, rfl⟩
  · show -(_ + _) ≤ -(_ + _); linarith
  · show -(_ + _) - -(_ + _) ≤ ((bestBound params n : ℕ) : ℝ) / 2; linarith

/-- **C30.** The private choice of the bound is eps-DP: for every dataset and id, the distributions of the chosen
bound with and without the id differ by a factor of at most e^eps on every set of outcomes, in both directions. -/
theorem C30_private_bound_is_dp (O : Ops) (hO : O.Lawful) (params : BoundsParams) (heps : 0 ≤ params.eps) (parts : List K)
    (hparts : parts ≠ []) (hub : 1 ≤ params.upperBound) (rows : List (P × K × V)) (p : P) :
    let c := (privateL0 Real.exp O params parts rows).1
    let rows' := rows.filter fun r => r.1 ≠ p
    (privateL0 Real.exp O params parts rows').1 = c ∧
    ∃ a b, (privateL0 Real.exp O params parts rows).2 = .ok a ∧ (privateL0 Real.exp O params parts rows').2 = .ok b ∧
      ∀ event, chosen c a event ≤ Real.exp params.eps * chosen c b event ∧
        chosen c b event ≤ Real.exp params.eps * chosen c a event := by
  intro c rows'
  refine ⟨rfl, ?_⟩
  set n := (O.distinct parts).length with hn
  have hn1 : 1 ≤ n := by
    obtain ⟨x, xs, rfl⟩ := List.exists_cons_of_ne_nil hparts
    exact List.length_pos_of_mem ((hO.distinct (x :: xs)).mem x |>.mpr List.mem_cons_self)
  have hb : 1 ≤ bestBound params n := le_min hub hn1
  set f := l0Scoring params n (l0Of O parts rows) with hf
  set g := l0Scoring params n (l0Of O parts rows') with hg
  have hc : c ≠ [] := (C31_candidates_nonempty_iff _).mpr hb
  have hN : Neighbouring f g c := by
    have hpos : (0 : ℝ) < f.sensitivity := by
      show (0 : ℝ) < ((bestBound params n : ℕ) : ℝ)
      exact_mod_cast hb
    refine ⟨rfl, rfl, hpos, ?_, ?_⟩
    · intro k _
      obtain ⟨h1, h2, -⟩ := C30_score_sensitivity O O hO hO params n parts rows p k
      have h1 : f.score k ≤ g.score k := h1
      have h2 : g.score k - f.score k ≤ f.sensitivity / 2 := h2
      rw [abs_le]
      constructor <;> linarith
    · intro _
      left
      intro k _
      exact (C30_score_sensitivity O O hO hO params n parts rows p k).1
  obtain ⟨a, b, ha, hb', hab⟩ := C29_exponential_mechanism_is_dp f g params.eps heps c hc hN
  obtain ⟨b2, a2, hb2, ha2, hba⟩ := C29_exponential_mechanism_is_dp g f params.eps heps c hc hN.symm
  rw [ha] at ha2
  rw [hb'] at hb2
  obtain rfl := Except.ok.inj ha2
  obtain rfl := Except.ok.inj hb2
  exact ⟨a, b, ha, hb', fun event => ⟨hab event, hba event⟩⟩

/-- **C30.** The chosen bound is between 1 and the smaller of the user's upper bound and the number of partitions. -/
theorem C30_range (O : Ops) (expf : ℝ → ℝ) (params : BoundsParams) (parts : List K) (rows : List (P × K × V)) :
    ∀ k ∈ (privateL0 expf O params parts rows).1, 1 ≤ k ∧ k ≤ params.upperBound ∧ k ≤ (O.distinct parts).length := by
  intro k hk
  obtain ⟨h1, h2, -⟩ := ((C31_possible_bounds _).2 k).mp hk
  exact ⟨h1, le_trans h2 (min_le_left _ _), le_trans h2 (min_le_right _ _)⟩

/-- **C30.** The score of the documentation, with the exact number of partitions of each id. -/
noncomputable def documentedScore (params : BoundsParams) (n : ℕ) (rows : List (P × K × V)) (k : ℕ) : ℝ :=
  -(1 / 2) * (n * params.std k) -
    (1 / 2) * ((((allIds rows).map fun p => max (min (partitionsOfId rows p : ℚ) (bestBound params n) - k) 0).sum : ℚ) : ℝ)

/-- **C30.** The computed score is never below the documented one, and equal to it when every id contributes to
fewer than 1000 partitions or the bound is at most 1000. -/
theorem C30_score_is_documented (O : Ops) (hO : O.Lawful) (params : BoundsParams) (n : ℕ) (parts : List K)
    (rows : List (P × K × V)) (k : ℕ) :
    let rs := rows.filter fun r => r.2.1 ∈ parts
    documentedScore params n rs k ≤ (l0Scoring params n (l0Of O parts rows)).score k ∧
    ((∀ p ∈ allIds rs, partitionsOfId rs p < 1000) ∨ bestBound params n ≤ 1000 →
      documentedScore params n rs k = (l0Scoring params n (l0Of O parts rows)).score k) := by
  intro rs
  have hd := impactDropped_eq (bestBound params n) k _ _ (C33_dataset_histograms O hO rs).l0
  have hscore : (l0Scoring params n (l0Of O parts rows)).score k
      = -((1 / 2) * (n * params.std k) + (1 - 1 / 2) * ((impactDropped (bestBound params n) (datasetHistograms O rs).l0 k : ℚ) : ℝ)) := rfl
  rw [hscore, hd, List.map_map]
  unfold documentedScore
  constructor
  · have : (((allIds rs).map ((fun x : ℕ => max (min ((binBounds x).1 : ℚ) (bestBound params n) - k) 0) ∘ partitionsOfId rs)).sum)
        ≤ ((allIds rs).map fun p => max (min (partitionsOfId rs p : ℚ) (bestBound params n) - k) 0).sum := by
      apply List.sum_le_sum
      intro p _
      apply max_le_max _ le_rfl
      have h1 : (((binBounds (partitionsOfId rs p)).1 : ℕ) : ℚ) ≤ (partitionsOfId rs p : ℚ) := by
        exact_mod_cast (mem_bin (partitionsOfId rs p)).1
      have := min_le_min_right (bestBound params n : ℚ) h1
      linarith
    have h' : ((((allIds rs).map ((fun x : ℕ => max (min ((binBounds x).1 : ℚ) (bestBound params n) - k) 0) ∘ partitionsOfId rs)).sum : ℚ) : ℝ)
        ≤ ((((allIds rs).map fun p => max (min (partitionsOfId rs p : ℚ) (bestBound params n) - k) 0).sum : ℚ) : ℝ) := by
      exact_mod_cast this
    linarith
  · intro hcond
    have : (((allIds rs).map ((fun x : ℕ => max (min ((binBounds x).1 : ℚ) (bestBound params n) - k) 0) ∘ partitionsOfId rs)).sum)
        = ((allIds rs).map fun p => max (min (partitionsOfId rs p : ℚ) (bestBound params n) - k) 0).sum := by
      congr 1
      apply List.map_congr_left
      intro p hp
      simp only [Function.comp]
      by_cases h0 : partitionsOfId rs p < 1000
      · have h2 : (binBounds (partitionsOfId rs p)).1 = partitionsOfId rs p := by
          rw [lower_self_iff]
          exact ⟨partitionsOfId rs p, 0, h0, by simp⟩
        rw [h2]
      · have hb : bestBound params n ≤ 1000 := hcond.resolve_left fun h => h0 (h p hp)
        have h3 : 1000 ≤ (binBounds (partitionsOfId rs p)).1 := by
          -- 1000 starts a bin
          have hl : (binBounds 1000).1 = 1000 := by
            rw [lower_self_iff]; exact ⟨1, 3, by norm_num, by norm_num⟩
          by_contra hlt
          push Not at hlt
          have hm := mem_bin (partitionsOfId rs p)
          have := binBounds_eq_of_mem (v := partitionsOfId rs p) (w := 1000) (by omega) (by omega)
          rw [this] at hl
          omega
        have hb' : ((bestBound params n : ℕ) : ℚ) ≤ 1000 := by exact_mod_cast hb
        have h3' : (1000 : ℚ) ≤ ((binBounds (partitionsOfId rs p)).1 : ℕ) := by exact_mod_cast h3
        have h0' : (1000 : ℚ) ≤ (partitionsOfId rs p : ℕ) := by exact_mod_cast not_lt.mp h0
        rw [min_eq_right (by linarith), min_eq_right (by linarith)]
    rw [this]; ring

/-- **C30, gap.** The weights are computed without normalising the scores, so for a floating point exponential
that underflows (is 0 below some -m), the computation fails for every dataset as soon as the number of partitions
is large against the upper bound. -/
theorem C30_underflow (O : Ops) (hO : O.Lawful) (params : BoundsParams) (heps : 0 < params.eps) (parts : List K)
    (hparts : parts ≠ []) (hub : 1 ≤ params.upperBound) (rows : List (P × K × V)) (m σ : ℝ) (expf : ℝ → ℝ)
    (hexp : ∀ x, x < -m → expf x = 0) (hσ : ∀ k, 1 ≤ k → σ ≤ params.std k)
    (hlarge : 2 * m * params.upperBound < (O.distinct parts).length * σ * params.eps) (hm : 0 ≤ m) :
    (privateL0 expf O params parts rows).2 = .error .valueError := by
  set n := (O.distinct parts).length with hn
  have hn1 : 1 ≤ n := by
    obtain ⟨x, xs, rfl⟩ := List.exists_cons_of_ne_nil hparts
    exact List.length_pos_of_mem ((hO.distinct (x :: xs)).mem x |>.mpr List.mem_cons_self)
  have hb : 1 ≤ bestBound params n := le_min hub hn1
  have hbR : (0 : ℝ) < (bestBound params n : ℕ) := by exact_mod_cast hb
  have hle : ((bestBound params n : ℕ) : ℝ) ≤ params.upperBound := by exact_mod_cast min_le_left _ _
  unfold privateL0 probabilities
  simp only
  rw [if_pos]
  apply List.sum_eq_zero
  intro w hw
  obtain ⟨k, hk, rfl⟩ := List.mem_map.mp hw
  have hk1 := ((C31_possible_bounds _).2 k).mp hk
  apply hexp
  have hden : (l0Scoring params n (l0Of O parts rows)).denominator = (bestBound params n : ℕ) := rfl
  rw [← hn, hden, div_lt_iff₀ hbR]
  have hdrop : (0 : ℝ) ≤ ((impactDropped (bestBound params n) (l0Of O parts rows) k : ℚ) : ℝ) := by
    have : 0 ≤ impactDropped (bestBound params n) (l0Of O parts rows) k := by
      unfold impactDropped
      apply List.sum_nonneg
      intro x hx
      obtain ⟨b, -, rfl⟩ := List.mem_map.mp hx
      have := le_max_right (min b.lower ((bestBound params n : ℕ) : ℚ) - k) 0
      positivity
    exact_mod_cast this
  have hs := hσ k hk1.1
  have hnR : (0 : ℝ) ≤ n := by positivity
  have hsc : (l0Scoring params n (l0Of O parts rows)).score k ≤ -(1 / 2) * (n * σ) := by
    show -((1 / 2) * ((n : ℝ) * params.std k) + (1 - 1 / 2) * _) ≤ _
    have : (n : ℝ) * σ ≤ n * params.std k := mul_le_mul_of_nonneg_left hs hnR
    linarith
  have h1 : (l0Scoring params n (l0Of O parts rows)).score k * params.eps ≤ -(1 / 2) * (n * σ) * params.eps :=
    mul_le_mul_of_nonneg_right hsc heps.le
  have h2 : m * ((bestBound params n : ℕ) : ℝ) ≤ m * params.upperBound := mul_le_mul_of_nonneg_left hle hm
  nlinarith

/-- Non-vacuity: three users, two partitions. -/
example : let rows : List (ℕ × ℕ × Unit) := [(1, 10, ()), (1, 11, ()), (2, 10, ()), (3, 11, ())]
    impactDropped 2 (l0Of localOps [10, 11] rows) 1 - impactDropped 2 (l0Of localOps [10, 11] (rows.filter fun r => r.1 ≠ 1)) 1 = 1 := by
  intro rows
  rw [l0Of, l0Of, impactDropped_eq _ _ _ _ (C33_dataset_histograms localOps localOps_lawful _).l0,
    impactDropped_eq _ _ _ _ (C33_dataset_histograms localOps localOps_lawful _).l0]
  have h1 : (allIds (rows.filter fun r => r.2.1 ∈ [10, 11])).map (partitionsOfId (rows.filter fun r => r.2.1 ∈ [10, 11])) = [2, 1, 1] := by
    decide +kernel
  have h2 : (allIds ((rows.filter fun r => r.1 ≠ 1).filter fun r => r.2.1 ∈ [10, 11])).map
      (partitionsOfId ((rows.filter fun r => r.1 ≠ 1).filter fun r => r.2.1 ∈ [10, 11])) = [1, 1] := by
    decide +kernel
  rw [h1, h2]
  have b1 : (binBounds 1).1 = 1 := by simp [binBounds, growBound]
  have b2 : (binBounds 2).1 = 2 := by simp [binBounds, growBound]
  simp only [List.map_cons, List.map_nil, b1, b2]
  norm_num

/-- Non-vacuity of the underflow conditions: a million partitions, bound 100. -/
example : (2 : ℝ) * 746 * 100 < 1000000 * 1 * 1 := by norm_num

end PDP.PrivateBounds
