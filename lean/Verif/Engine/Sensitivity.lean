import Verif.Engine.Entries

/-!
# Properties C14–C18: declared sensitivities cover the change caused by one privacy id

`accumulators B p … col` are the accumulators of `aggregate()` before noise, on any lawful backend and
for any random outcome; `without u col` is the neighbouring dataset.  The exact value of a metric in a
partition is the sum of the readings of its accumulators.
-/

set_option linter.unusedSectionVars false
set_option linter.unusedVariables false

namespace PDP.Engine

open PDP

variable {P K V A : Type} [DecidableEq P] [DecidableEq K]

theorem Sens.Covers.of_eq {s : Sens} {Δ Δ' : K → ℚ} (h : s.Covers Δ') (he : ∀ k, Δ k = Δ' k) :
    s.Covers Δ := by rwa [show Δ = Δ' from funext he]

theorem readAs_create (cs : List (Combiner V)) (c : Combiner V) (i : Fin cs.length) (h : cs[i] = c)
    (vs : List V) : Combiner.readAs c i h ((Combiner.compound cs).create vs) = c.create vs := by
  subst h
  exact component_createTuple cs vs i

theorem sampling_of_mem (cs : List (Combiner V)) (c : Combiner V) (i : Fin cs.length) (h : cs[i] = c)
    (hs : c.sampling = true) : (Combiner.compound cs).sampling = true := by
  subst h
  exact List.any_eq_true.mpr ⟨_, List.getElem_mem _, hs⟩

theorem perValue_bounds {p : Params} {sampling : Bool} {E : List (K × List V)} (hE : UserEntries p sampling E)
    (ν : List V → ℚ) (c : ℚ) (hc : 0 ≤ c) (hν : ∀ vs, |ν vs| ≤ c * vs.length) :
    (∀ l0, p.maxPartitions = some l0 → ∀ ks : List K, ks.Nodup →
      ((ks.filter fun k => partitionTotal ν E k ≠ 0).length : ℚ) ≤ l0) ∧
    (∀ linf, p.maxPerPartition = some linf → sampling = true ∨ p.boundsEnforced = true →
      ∀ k, |partitionTotal ν E k| ≤ c * linf) ∧
    (∀ m, p.maxContributions = some m → ∀ ks : List K, ks.Nodup →
      (ks.map fun k => |partitionTotal ν E k|).sum ≤ c * m) := by
  refine ⟨?_, ?_, ?_⟩
  · intro l0 hl ks hks
    exact_mod_cast (changed_count E ν ks hks).trans (hE.partitions l0 hl)
  · intro linf hl hs k
    refine (abs_total_le E ν k).trans ?_
    refine (total_le_total E _ (fun vs => c * vs.length) (fun e _ => hν e.2) k).trans ?_
    have h1 := hE.perPartition linf hl hs k
    have h2 : partitionTotal (fun vs : List V => c * (vs.length : ℚ)) E k
        = c * (((valuesOf k E).map List.length).sum : ℕ) := by
      unfold partitionTotal
      rw [List.sum_map_mul_left, Nat.cast_list_sum, List.map_map]; rfl
    rw [h2]
    exact mul_le_mul_of_nonneg_left (by exact_mod_cast h1) hc
  · intro m hm ks hks
    have h0 : (ks.map fun k => |partitionTotal ν E k|).sum
        ≤ (ks.map fun k => partitionTotal (fun vs => |ν vs|) E k).sum :=
      List.sum_le_sum fun k _ => abs_total_le E ν k
    refine h0.trans ((sum_totals_le E _ (fun vs => abs_nonneg _) ks hks).trans ?_)
    have h1 : (E.map fun e => |ν e.2|).sum ≤ (E.map fun e => c * (e.2.length : ℚ)).sum :=
      List.sum_le_sum fun e _ => hν e.2
    refine h1.trans ?_
    have h2 : (E.map fun e => c * (e.2.length : ℚ)).sum = c * ((E.map fun e => e.2.length).sum : ℕ) := by
      rw [List.sum_map_mul_left, Nat.cast_list_sum, List.map_map]; rfl
    rw [h2]
    exact mul_le_mul_of_nonneg_left (by exact_mod_cast hE.total m hm) hc

/-- With one bounded value per entry and one entry per partition. -/
theorem perEntry_bounds {p : Params} {sampling : Bool} {E : List (K × List V)} (hE : UserEntries p sampling E)
    (he : p.boundsEnforced = false) (ν : List V → ℚ) (c : ℚ) (hc : 0 ≤ c) (hν : ∀ vs, |ν vs| ≤ c) :
    (∀ l0, p.maxPartitions = some l0 → ∀ ks : List K, ks.Nodup →
      ((ks.filter fun k => partitionTotal ν E k ≠ 0).length : ℚ) ≤ l0) ∧
    (∀ k, |partitionTotal ν E k| ≤ c) ∧
    (∀ m, p.maxContributions = some m → ∀ ks : List K, ks.Nodup →
      (ks.map fun k => |partitionTotal ν E k|).sum ≤ c * m) := by
  refine ⟨?_, ?_, ?_⟩
  · intro l0 hl ks hks
    exact_mod_cast (changed_count E ν ks hks).trans (hE.partitions l0 hl)
  · intro k
    unfold partitionTotal
    rcases valuesOf_of_nodup (hE.once he) k with h1 | ⟨x, h1, -⟩
    · simpa [h1] using hc
    · simpa [h1] using hν x
  · intro m hm ks hks
    have h0 : (ks.map fun k => |partitionTotal ν E k|).sum
        ≤ (ks.map fun k => partitionTotal (fun vs => |ν vs|) E k).sum :=
      List.sum_le_sum fun k _ => abs_total_le E ν k
    refine h0.trans ((sum_totals_le E _ (fun vs => abs_nonneg _) ks hks).trans ?_)
    have h1 : (E.map fun e => |ν e.2|).sum ≤ (E.map fun e => c * (e.2.length : ℚ)).sum := by
      apply List.sum_le_sum
      intro e hee
      have : 1 ≤ (e.2.length : ℚ) := by
        exact_mod_cast List.length_pos_iff.mpr (hE.nonempty e hee)
      exact (hν e.2).trans (le_mul_of_one_le_right hc this)
    refine h1.trans ?_
    have h2 : (E.map fun e => c * (e.2.length : ℚ)).sum = c * ((E.map fun e => e.2.length).sum : ℕ) := by
      rw [List.sum_map_mul_left, Nat.cast_list_sum, List.map_map]; rfl
    rw [h2]
    exact mul_le_mul_of_nonneg_left (by exact_mod_cast hE.total m hm) hc

/-! ### COUNT -/

/-- **C14.** Removing one privacy id changes the exact counts of at most `max_partitions_contributed`
partitions, each by at most `max_contributions_per_partition` (or in total by at most
`max_contributions`): the sensitivities declared for COUNT exist and cover the change.  This holds for
COUNT computed alone or together with any other metrics, for public and private partitions, with any
enforced bounds. -/
theorem C14_count_sensitivity (B : Backend) (hB : B.Lawful) (hK : B.KeyLocal) (p : Params)
    (hp : p.BoundsValid) (cs : List (Combiner V)) (i : Fin cs.length) (hc : cs[i] = Combiner.count V)
    (pub : Option (List K)) (col : List (P × K × V)) (u : P) (hu : CallerKeepsBounds p u col) :
    ∃ a a' s,
      accumulators B p (Combiner.compound cs).sampling (Combiner.compound cs).create pub col = .ok a ∧
      accumulators B p (Combiner.compound cs).sampling (Combiner.compound cs).create pub (without u col) = .ok a' ∧
      sensCount p = .ok s ∧
      s.Covers fun k =>
        partitionTotal (fun x => ((show ℕ from Combiner.readAs _ i hc x : ℕ) : ℚ)) a k
        - partitionTotal (fun x => ((show ℕ from Combiner.readAs _ i hc x : ℕ) : ℚ)) a' k := by
  obtain ⟨a, a', E, h1, h2, h3, hE⟩ := accumulators_change B hB hK p hp (Combiner.compound cs).sampling
    (Combiner.compound cs).create pub col u hu
  have hs := sampling_of_mem cs _ i hc rfl
  let ν : List V → ℚ := fun vs => (vs.length : ℚ)
  obtain ⟨b1, b2, b3⟩ := perValue_bounds hE ν 1 (by norm_num) (by intro vs; simp [ν])
  have hΔ : ∀ k, partitionTotal (fun x => ((show ℕ from Combiner.readAs _ i hc x : ℕ) : ℚ)) a k
      - partitionTotal (fun x => ((show ℕ from Combiner.readAs _ i hc x : ℕ) : ℚ)) a' k
      = partitionTotal ν E k := by
    intro k; rw [h3]; simp only [readAs_create]; rfl
  rcases hp with ⟨m, hm, e1, e2, e3⟩ | ⟨l0, linf, h0, hi, e1, e2, e3⟩
  · obtain ⟨s, hs1, hs2⟩ := covers_norms (c := (m : ℚ)) (by exact_mod_cast hm)
      (Δ := partitionTotal ν E) (fun ks hks => by simpa using b3 m e1 ks hks)
    exact ⟨a, a', s, h1, h2, by simpa [sensCount, e1] using hs1, hs2.of_eq hΔ⟩
  · have hb : ∀ k, |partitionTotal ν E k| ≤ (linf : ℚ) := by
      intro k
      have := b2 linf e3 (Or.inl hs) k
      rwa [one_mul] at this
    obtain ⟨s, hs1, hs2⟩ := covers_pair (l0 := (l0 : ℚ)) (linf := (linf : ℚ)) (by exact_mod_cast h0)
      (by exact_mod_cast hi) (Δ := partitionTotal ν E) (b1 l0 e2) hb
    exact ⟨a, a', s, h1, h2, by simpa [sensCount, e1, e2, e3] using hs1, hs2.of_eq hΔ⟩

/-! ### PRIVACY_ID_COUNT -/

/-- **C15.** Removing one privacy id changes the exact privacy id counts of at most
`max_partitions_contributed` partitions, each by at most 1 (in total by at most `max_contributions`), as
declared.  (`AggregateParams` rejects PRIVACY_ID_COUNT with bounds already enforced.) -/
theorem C15_privacy_id_count_sensitivity (B : Backend) (hB : B.Lawful) (hK : B.KeyLocal) (p : Params)
    (hp : p.BoundsValid) (he : p.boundsEnforced = false)
    (cs : List (Combiner V)) (i : Fin cs.length) (hc : cs[i] = Combiner.privacyIdCount V)
    (pub : Option (List K)) (col : List (P × K × V)) (u : P) (hu : CallerKeepsBounds p u col) :
    ∃ a a' s,
      accumulators B p (Combiner.compound cs).sampling (Combiner.compound cs).create pub col = .ok a ∧
      accumulators B p (Combiner.compound cs).sampling (Combiner.compound cs).create pub (without u col) = .ok a' ∧
      sensPrivacyIdCount p = .ok s ∧
      s.Covers fun k =>
        partitionTotal (fun x => ((show ℕ from Combiner.readAs _ i hc x : ℕ) : ℚ)) a k
        - partitionTotal (fun x => ((show ℕ from Combiner.readAs _ i hc x : ℕ) : ℚ)) a' k := by
  obtain ⟨a, a', E, h1, h2, h3, hE⟩ := accumulators_change B hB hK p hp (Combiner.compound cs).sampling
    (Combiner.compound cs).create pub col u hu
  let ν : List V → ℚ := fun vs => ((if vs.isEmpty then 0 else 1 : ℕ) : ℚ)
  have hν : ∀ vs : List V, |ν vs| ≤ 1 := by intro vs; simp only [ν]; split <;> simp
  obtain ⟨b1, b2, b3⟩ := perEntry_bounds hE he ν 1 (by norm_num) hν
  have hΔ : ∀ k, partitionTotal (fun x => ((show ℕ from Combiner.readAs _ i hc x : ℕ) : ℚ)) a k
      - partitionTotal (fun x => ((show ℕ from Combiner.readAs _ i hc x : ℕ) : ℚ)) a' k
      = partitionTotal ν E k := by
    intro k; rw [h3]; simp only [readAs_create]; rfl
  rcases hp with ⟨m, hm, e1, e2, e3⟩ | ⟨l0, linf, h0, hi, e1, e2, e3⟩
  · obtain ⟨s, hs1, hs2⟩ := covers_unit (m := (m : ℚ)) (by exact_mod_cast hm)
      (Δ := partitionTotal ν E) b2 (fun ks hks => by simpa using b3 m e1 ks hks)
    exact ⟨a, a', s, h1, h2, by simpa [sensPrivacyIdCount, e1] using hs1, hs2.of_eq hΔ⟩
  · obtain ⟨s, hs1, hs2⟩ := covers_pair (l0 := (l0 : ℚ)) (linf := (1 : ℚ)) (by exact_mod_cast h0)
      (by norm_num) (Δ := partitionTotal ν E) (b1 l0 e2) b2
    exact ⟨a, a', s, h1, h2, by simpa [sensPrivacyIdCount, e1, e2] using hs1, hs2.of_eq hΔ⟩

/-! ### SUM -/

theorem clip_le {lo hi : ℚ} (h : lo ≤ hi) (x : ℚ) : lo ≤ clip lo hi x ∧ clip lo hi x ≤ hi :=
  ⟨le_min (le_max_right _ _) h, min_le_right _ _⟩

theorem abs_clip_le {lo hi : ℚ} (h : lo ≤ hi) (x : ℚ) : |clip lo hi x| ≤ max |lo| |hi| :=
  abs_le_max_abs_abs (clip_le h x).1 (clip_le h x).2

theorem abs_sum_map_le (f : ℚ → ℚ) (c : ℚ) (h : ∀ x, |f x| ≤ c) (vs : List ℚ) :
    |(vs.map f).sum| ≤ c * vs.length := by
  induction vs with
  | nil => simp
  | cons v vs ih =>
    simp only [List.map_cons, List.sum_cons, List.length_cons]; push_cast
    have := (abs_add_le (f v) (vs.map f).sum)
    have := h v; linarith

theorem maxAbs_pos {lo hi : ℚ} (h : ¬(lo = 0 ∧ hi = 0)) : 0 < max |lo| |hi| := by
  by_cases h1 : lo = 0
  · have h2 : hi ≠ 0 := fun h2 => h ⟨h1, h2⟩
    exact lt_of_lt_of_le (abs_pos.mpr h2) (le_max_right _ _)
  · exact lt_of_lt_of_le (abs_pos.mpr h1) (le_max_left _ _)

/-- **C16.** SUM with bounds per value: removing one privacy id changes the exact clipped sums of at most
`max_partitions_contributed` partitions, each by at most
`max(|min_value|, |max_value|) * max_contributions_per_partition` (or in total by at most
`max(|min_value|, |max_value|) * max_contributions`), as declared.  (If both bounds are 0 the code raises
`ValueError`, see `C16_zero_bounds_rejected`.) -/
theorem C16_sum_per_value_sensitivity (B : Backend) (hB : B.Lawful) (hK : B.KeyLocal) (p : Params)
    (hp : p.BoundsValid) (lo hi : ℚ) (hlo : p.minValue = some lo) (hhi : p.maxValue = some hi) (hle : lo ≤ hi)
    (h0 : ¬(lo = 0 ∧ hi = 0)) (cs : List (Combiner ℚ)) (i : Fin cs.length)
    (hc : cs[i] = Combiner.sumPerValue lo hi)
    (pub : Option (List K)) (col : List (P × K × ℚ)) (u : P) (hu : CallerKeepsBounds p u col) :
    ∃ a a' s,
      accumulators B p (Combiner.compound cs).sampling (Combiner.compound cs).create pub col = .ok a ∧
      accumulators B p (Combiner.compound cs).sampling (Combiner.compound cs).create pub (without u col) = .ok a' ∧
      sensSum p = .ok s ∧
      s.Covers fun k =>
        partitionTotal (fun x => (show ℚ from Combiner.readAs _ i hc x)) a k
        - partitionTotal (fun x => (show ℚ from Combiner.readAs _ i hc x)) a' k := by
  obtain ⟨a, a', E, h1, h2, h3, hE⟩ := accumulators_change B hB hK p hp (Combiner.compound cs).sampling
    (Combiner.compound cs).create pub col u hu
  have hs := sampling_of_mem cs _ i hc rfl
  let ν : List ℚ → ℚ := fun vs => (vs.map (clip lo hi)).sum
  have hpos := maxAbs_pos h0
  obtain ⟨b1, b2, b3⟩ := perValue_bounds hE ν (max |lo| |hi|) hpos.le
    (abs_sum_map_le _ _ (abs_clip_le hle))
  have hΔ : ∀ k, partitionTotal (fun x => (show ℚ from Combiner.readAs _ i hc x)) a k
      - partitionTotal (fun x => (show ℚ from Combiner.readAs _ i hc x)) a' k = partitionTotal ν E k := by
    intro k; rw [h3]; simp only [readAs_create]; rfl
  rcases hp with ⟨m, hm, e1, e2, e3⟩ | ⟨l0, linf, hl0, hl, e1, e2, e3⟩
  · have hm' : (0 : ℚ) < m := by exact_mod_cast hm
    obtain ⟨s, hs1, hs2⟩ := covers_norms (c := max |lo| |hi| * m) (mul_pos hpos hm')
      (Δ := partitionTotal ν E) (b3 m e1)
    refine ⟨a, a', s, h1, h2, ?_, hs2.of_eq hΔ⟩
    have : m ≠ 0 := by omega
    simpa [sensSum, Params.valueBoundsSet, hlo, hhi, num, natNum, e1, this, bind, Except.bind] using hs1
  · have hl' : (0 : ℚ) < linf := by exact_mod_cast hl
    obtain ⟨s, hs1, hs2⟩ := covers_pair (l0 := (l0 : ℚ)) (linf := max |lo| |hi| * linf)
      (by exact_mod_cast hl0) (mul_pos hpos hl') (Δ := partitionTotal ν E) (b1 l0 e2)
      (b2 linf e3 (Or.inl hs))
    refine ⟨a, a', s, h1, h2, ?_, hs2.of_eq hΔ⟩
    simpa [sensSum, Params.valueBoundsSet, hlo, hhi, num, natNum, e1, e2, e3, bind, Except.bind] using hs1

/-- **C16.** SUM with bounds on the sum per partition: removing one privacy id changes the exact sums of
at most `max_partitions_contributed` partitions, each by at most
`max(|min_sum_per_partition|, |max_sum_per_partition|)`, as declared, however many rows the id has.
Requires that the engine does the bounding: see `C16_per_partition_clipping_broken_if_enforced`. -/
theorem C16_sum_per_partition_sensitivity (B : Backend) (hB : B.Lawful) (hK : B.KeyLocal) (p : Params)
    (hp : p.BoundsValid) (hmc : p.maxContributions = none) (he : p.boundsEnforced = false)
    (lo hi : ℚ) (hv : p.minValue = none) (hlo : p.minSum = some lo) (hhi : p.maxSum = some hi) (hle : lo ≤ hi)
    (h0 : ¬(lo = 0 ∧ hi = 0)) (cs : List (Combiner ℚ)) (i : Fin cs.length)
    (hc : cs[i] = Combiner.sumPerPartition lo hi)
    (pub : Option (List K)) (col : List (P × K × ℚ)) (u : P) (hu : CallerKeepsBounds p u col) :
    ∃ a a' s,
      accumulators B p (Combiner.compound cs).sampling (Combiner.compound cs).create pub col = .ok a ∧
      accumulators B p (Combiner.compound cs).sampling (Combiner.compound cs).create pub (without u col) = .ok a' ∧
      sensSum p = .ok s ∧
      s.Covers fun k =>
        partitionTotal (fun x => (show ℚ from Combiner.readAs _ i hc x)) a k
        - partitionTotal (fun x => (show ℚ from Combiner.readAs _ i hc x)) a' k := by
  obtain ⟨a, a', E, h1, h2, h3, hE⟩ := accumulators_change B hB hK p hp (Combiner.compound cs).sampling
    (Combiner.compound cs).create pub col u hu
  let ν : List ℚ → ℚ := fun vs => clip lo hi vs.sum
  have hpos := maxAbs_pos h0
  obtain ⟨b1, b2, b3⟩ := perEntry_bounds hE he ν (max |lo| |hi|) hpos.le (fun vs => abs_clip_le hle _)
  have hΔ : ∀ k, partitionTotal (fun x => (show ℚ from Combiner.readAs _ i hc x)) a k
      - partitionTotal (fun x => (show ℚ from Combiner.readAs _ i hc x)) a' k = partitionTotal ν E k := by
    intro k; rw [h3]; simp only [readAs_create]; rfl
  rcases hp with ⟨m, hm, e1, e2, e3⟩ | ⟨l0, linf, hl0, hl, e1, e2, e3⟩
  · rw [hmc] at e1; exact absurd e1 (by simp)
  · obtain ⟨s, hs1, hs2⟩ := covers_pair (l0 := (l0 : ℚ)) (linf := max |lo| |hi|)
      (by exact_mod_cast hl0) hpos (Δ := partitionTotal ν E) (b1 l0 e2) b2
    refine ⟨a, a', s, h1, h2, ?_, hs2.of_eq hΔ⟩
    simpa [sensSum, Params.valueBoundsSet, hv, hlo, hhi, num, e2, bind, Except.bind] using hs1

end PDP.Engine
