import Verif.Engine.Report
import Verif.Bounding.Props

/-!
# What reports say about contribution bounding, and what is kept (`contribution_bounders.py:83-86, 100-103, 131-133, 223-226`)

The lines of the report name a number of contributions or partitions that are kept; the theorems compare it with the number
that the bounder of the same call keeps (C08, C09, C11).
-/

namespace PDP.Engine.Report

open PDP (Backend boundCrossAndPer boundPerId boundLinf KeptFrom cell partitionsOf rowsBehind)

/-- Some stage of the report is the line `line`, whatever the budgets are and the combiners say. -/
def Says (st : List Stage) (line : String) : Prop :=
  ∃ s ∈ st, ∀ (W : Type) (budget : W → Except Err String) (describe : Part → W → Except Err String) (w : W),
    Entry.eval w (Stage.entry budget describe s) = .ok line

theorem samples_iff (p : Params) (parts : List Part) (hs : ∃ q ∈ parts, SamplesRows p q) :
    parts.any (partSampling p) = true := by
  obtain ⟨q, hq, h⟩ := hs
  rw [List.any_eq_true]
  refine ⟨q, hq, ?_⟩
  cases q with
  | sum _ =>
    simp only [partSampling, SamplesRows, Params.sumBoundsSet] at h ⊢
    cases hmin : p.minSum <;> cases hmax : p.maxSum <;> simp [hmin, hmax] at h ⊢
  | privacyIdCount _ => exact h.elim
  | thresholding _ => exact h.elim
  | _ => rfl

theorem max_iff_eq {n a x : ℕ} (h : x = min n a) : x = max a n ↔ a = n := by omega

/-- **C59, gap.** If contributions are bounded per partition and across partitions, the report says that of each privacy id
`max(actual, bound)` partitions, and `max(actual, bound)` contributions of each of them, are selected. This is the number that is
kept only where the actual number is the bound itself: everywhere else the report names a larger number than the one kept, which
is `min(actual, bound)`. -/
theorem C59_cross_and_per_lines_name_the_larger_number {Q P K V A : Type} [DecidableEq P] [DecidableEq K] (p : Params)
    (parts : List Part) (pub : Option (List Q)) (l0 linf : ℕ) (h0 : 1 ≤ l0) (hi : 1 ≤ linf)
    (he : p.boundsEnforced = false) (hm : p.maxContributions = none) (hc : p.performCross = true)
    (hl0 : p.maxPartitions = some l0) (hlinf : p.maxPerPartition = some linf) (hs : ∃ q ∈ parts, SamplesRows p q)
    (B : Backend) (hB : B.Lawful) (agg : List V → A) (col : List (P × K × V)) :
    ∃ st, aggregateStages p parts pub = .ok st ∧
      Says st ("Per-partition contribution bounding: for each privacy_id and each partition, randomly select \
        max(actual_contributions_per_partition, " ++ toString linf ++ ") contributions.") ∧
      Says st ("Cross-partition contribution bounding: for each privacy_id randomly select \
        max(actual_partition_contributed, " ++ toString l0 ++ ") partitions") ∧
      selectBounder p (parts.any (partSampling p)) = .ok (.crossAndPer l0 linf) ∧
      ∃ kept : List ((P × K) × List V),
        boundCrossAndPer B l0 linf agg col = kept.map (fun e => (e.1, agg e.2)) ∧ KeptFrom col kept ∧
        (∀ e ∈ kept, e.2.length = max (cell e.1.1 e.1.2 col).length linf ↔ (cell e.1.1 e.1.2 col).length = linf) ∧
        ∀ u, (kept.filter fun e => e.1.1 = u).length = max (partitionsOf u col).length l0 ↔
          (partitionsOf u col).length = l0 := by
  obtain ⟨st, h1, -, h3, h4⟩ := C59_bounding_stages p (Or.inr ⟨l0, linf, h0, hi, hm, hl0, hlinf⟩) parts pub
  obtain ⟨kept, k1, k2, k3, k4⟩ := PDP.C08_cross_and_per_partition_bounded B hB l0 linf h0 hi agg col
  refine ⟨st, h1, ⟨.perPartition linf, (h3 linf).mpr ⟨he, hlinf, hs⟩, ?_⟩,
    ⟨.crossPartition l0, (h4 l0).mpr ⟨he, hl0, hc, hs⟩, ?_⟩,
    by simp [selectBounder, hm, hc, hl0, hlinf, samples_iff p parts hs, natArg, bind, Except.bind, pure, Except.pure],
    kept, k1, k2, fun e he => max_iff_eq (k3 e he),
    fun u => max_iff_eq (k4 u)⟩
  · intro W budget describe w
    simp only [Stage.entry, Entry.eval, Except.ok.injEq]
    rfl
  · intro W budget describe w
    simp only [Stage.entry, Entry.eval, Except.ok.injEq]
    rfl

/-- **C59, gap.** The same holds of the line on contributions per partition if contributions are not bounded across partitions. -/
theorem C59_per_partition_line_names_the_larger_number {Q P K V A : Type} [DecidableEq P] [DecidableEq K] (p : Params)
    (parts : List Part) (pub : Option (List Q)) (hp : p.BoundsValid) (linf : ℕ) (hi : 1 ≤ linf)
    (he : p.boundsEnforced = false) (hm : p.maxContributions = none) (hc : p.performCross = false) (hlinf : p.maxPerPartition = some linf) (hs : ∃ q ∈ parts, SamplesRows p q)
    (B : Backend) (hB : B.Lawful) (agg : List V → A) (col : List (P × K × V)) :
    ∃ st, aggregateStages p parts pub = .ok st ∧
      Says st ("Per-partition contribution bounding: for each privacy_id and each partition, randomly select \
        max(actual_contributions_per_partition, " ++ toString linf ++ ") contributions.") ∧
      selectBounder p (parts.any (partSampling p)) = .ok (.linf linf) ∧
      ∃ kept : List ((P × K) × List V),
        boundLinf B linf agg col = kept.map (fun e => (e.1, agg e.2)) ∧ KeptFrom col kept ∧
        ∀ e ∈ kept, e.2.length = max (cell e.1.1 e.1.2 col).length linf ↔ (cell e.1.1 e.1.2 col).length = linf := by
  obtain ⟨st, h1, -, h3, -⟩ := C59_bounding_stages p hp parts pub
  obtain ⟨kept, k1, k2, k3, -⟩ := PDP.C11_linf_sampler B hB linf hi agg col
  refine ⟨st, h1, ⟨.perPartition linf, (h3 linf).mpr ⟨he, hlinf, hs⟩, ?_⟩,
    by simp [selectBounder, hm, hc, hlinf, samples_iff p parts hs, natArg, bind, Except.bind, pure, Except.pure],
    kept, k1, k2, fun e he => max_iff_eq (k3 e he)⟩
  intro W budget describe w
  simp only [Stage.entry, Entry.eval, Except.ok.injEq]
  rfl

/-- **C59.** With `max_contributions`, the report says that not more than this number of contributions are selected of each user,
and this is so. -/
theorem C59_user_line_is_right {Q P K V A : Type} [DecidableEq P] [DecidableEq K] (p : Params)
    (parts : List Part) (pub : Option (List Q)) (hp : p.BoundsValid) (m : ℕ) (hm1 : 1 ≤ m)
    (he : p.boundsEnforced = false) (hm : p.maxContributions = some m)
    (B : Backend) (hB : B.Lawful) (agg : List V → A) (col : List (P × K × V)) :
    ∃ st, aggregateStages p parts pub = .ok st ∧
      Says st ("User contribution bounding: randomly selected not more than " ++ toString m ++ " contributions") ∧
      selectBounder p (parts.any (partSampling p)) = .ok (.perId m) ∧
      ∃ kept : List ((P × K) × List V),
        boundPerId B m agg col = kept.map (fun e => (e.1, agg e.2)) ∧ KeptFrom col kept ∧
        ∀ u, ((rowsBehind kept).filter fun r => r.1 = u).length ≤ m := by
  obtain ⟨st, h1, h2, -, -⟩ := C59_bounding_stages p hp parts pub
  obtain ⟨kept, k1, k2, k3⟩ := PDP.C09_total_contributions_bounded B hB m hm1 agg col
  refine ⟨st, h1, ⟨.perUser m, (h2 m).mpr ⟨he, hm⟩, ?_⟩, by simp [selectBounder, hm, natArg, show m ≠ 0 by omega, bind, Except.bind, pure, Except.pure],
    kept, k1, k2, fun u => by rw [k3 u]; exact min_le_left _ _⟩
  intro W budget describe w
  simp only [Stage.entry, Entry.eval, Except.ok.injEq]
  rfl

/-- Parameters of the first theorem, with data of two users where one of them exceeds both bounds. -/
example := C59_cross_and_per_lines_name_the_larger_number (Q := ℕ)
  { metrics := [.count], maxPartitions := some 2, maxPerPartition := some 2 } [.count 0] none 2 2 (by decide) (by decide)
  rfl rfl rfl rfl rfl ⟨.count 0, by simp, trivial⟩ (PDP.localBackend PDP.firstRng)
  (PDP.C39_local_backend_lawful PDP.firstRng) List.length PDP.sampleRows

/-- User 1 has three contributions to partition 10, of which two are kept; the report says `max(3, 2)`. -/
example : (cell 1 10 PDP.sampleRows).length = 3 ∧ (partitionsOf 1 PDP.sampleRows).length = 3 ∧
    boundCrossAndPer (PDP.localBackend PDP.firstRng) 2 2 List.length PDP.sampleRows
      = [((1, 10), 2), ((1, 20), 1), ((2, 10), 1), ((2, 20), 1)] := by decide +kernel

example := C59_user_line_is_right (Q := ℕ) { metrics := [.count], maxContributions := some 3 } [.count 0] none
  (Or.inl ⟨3, by decide, rfl, rfl, rfl⟩) 3 (by decide) rfl rfl (PDP.localBackend PDP.firstRng)
  (PDP.C39_local_backend_lawful PDP.firstRng) List.length PDP.sampleRows

example := C59_per_partition_line_names_the_larger_number (Q := ℕ)
  { metrics := [.count], maxPartitions := some 2, maxPerPartition := some 2, performCross := false } [.count 0] none
  (Or.inr ⟨2, 2, by decide, by decide, rfl, rfl, rfl⟩) 2 (by decide) rfl rfl rfl rfl ⟨.count 0, by simp, trivial⟩
  (PDP.localBackend PDP.firstRng) (PDP.C39_local_backend_lawful PDP.firstRng) List.length PDP.sampleRows

end PDP.Engine.Report
