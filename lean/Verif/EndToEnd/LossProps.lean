import Verif.EndToEnd.Loss

/-!
# The privacy loss that one user can cause (C80)
-/

set_option linter.unusedSectionVars false

namespace PDP.EndToEnd

open PDP PDP.Engine PDP.Approx MeasureTheory
open PDP.Engine.Mechanism (Additive computed)
open PDP.Engine.AddNoise (specOf)

variable {P K : Type} [DecidableEq P] [DecidableEq K]

/-! ### Specification -/

/-- Parameters of `aggregate` with public partitions and Laplace noise which are computed without an exception, with or without the
defects of SUM (C16) and VARIANCE (C17). -/
structure Computable (p : Params) : Prop where
  bounds : p.BoundsValid
  laplace : p.noiseKind = .laplace
  weight : 0 < p.budgetWeight
  requested : p.metrics ≠ []
  metrics : ∀ m ∈ p.metrics, m = .count ∨ m = .privacyIdCount ∨ m = .sum ∨ m = .mean ∨ m = .variance
  noThresholding : p.postThresholding = false
  ids : Metric.privacyIdCount ∈ p.metrics → p.boundsEnforced = false
  oneKind : p.minValue = none ∨ p.sumBoundsSet = false
  zero : ∀ lo hi, p.minSum = some lo → p.maxSum = some hi → lo ≤ 0 ∧ 0 ≤ hi
  sum : Metric.sum ∈ p.metrics → Metric.mean ∉ p.metrics → Metric.variance ∉ p.metrics →
    (∃ lo hi, p.minValue = some lo ∧ p.maxValue = some hi ∧ lo ≤ hi ∧ ¬(lo = 0 ∧ hi = 0)) ∨
    (∃ lo hi, p.minSum = some lo ∧ p.maxSum = some hi ∧ lo ≤ 0 ∧ 0 ≤ hi ∧ ¬(lo = 0 ∧ hi = 0) ∧ p.maxContributions = none)
  mean : Metric.mean ∈ p.metrics → Metric.variance ∉ p.metrics → MeanOk p
  variance : Metric.variance ∈ p.metrics → MeanOk p ∧ p.maxContributions = none

/-- The user with the largest influence: the number of its partitions, and of its rows in each of them. -/
def worstShape (p : Params) : ℕ × ℕ :=
  match p.maxContributions with
  | some m => (m, 1)
  | none => (p.maxPartitions.getD 0, p.maxPerPartition.getD 0)

/-- The end of an interval which is farther from 0. -/
def farEnd (lo hi : ℚ) : ℚ := if |lo| ≤ |hi| then hi else lo

/-- The value of each of its rows. -/
def worstValue (p : Params) : ℚ :=
  if p.sumBoundsSet then
    farEnd (p.minSum.getD 0) (p.maxSum.getD 0) / (if p.boundsEnforced then 1 else ((worstShape p).2 : ℚ))
  else farEnd (p.minValue.getD 0) (p.maxValue.getD 0)

/-- The rows of the user `u` with the largest influence, in the partitions `ks`. -/
def worstRows (p : Params) (u : P) (ks : List K) : List (P × K × ℚ) :=
  ks.flatMap fun k => List.replicate (worstShape p).2 (u, k, worstValue p)

/-- Number of parts in which the budget of the call is divided. -/
def budgetParts (p : Params) : ℕ :=
  (if Metric.variance ∈ p.metrics then 1
   else if Metric.mean ∈ p.metrics then 2
   else (if Metric.count ∈ p.metrics then 1 else 0) + (if Metric.sum ∈ p.metrics then 1 else 0))
  + (if Metric.privacyIdCount ∈ p.metrics then 1 else 0)

/-- By how much the loss of one part of the budget is more than this part, relative to it.  VARIANCE: one third is for the squares,
which one row changes by the square of half of the length of the interval, while the noise is made for half of the length of the
interval of the squares.  SUM with bounds per partition and enforced bounds: each row is clipped on its own. -/
def excess (p : Params) : ℚ :=
  if Metric.variance ∈ p.metrics then
    ((p.maxValue.getD 0 - p.minValue.getD 0) ^ 2 / (2 * squaresLength (p.minValue.getD 0) (p.maxValue.getD 0)) - 1) / 3
  else if Metric.mean ∈ p.metrics then 0
  else if Metric.sum ∈ p.metrics ∧ p.sumBoundsSet = true ∧ p.boundsEnforced = true then (p.maxPerPartition.getD 0 : ℕ) - 1
  else 0

/-- The call of `aggregate` on rows (privacy id, partition, value) with public partitions `ps`. -/
def publicCall (p : Params) (ps : List K) : Call (P × K × ℚ) K := .aggregate p (some ps) (fun r => r.2.1) (fun r => r.2.2)

/-! ### The numbers -/

/-- The numbers of a combiner as in `documented`; SUM with bounds per partition clips each row if the bounds are enforced already. -/
noncomputable def actual (p : Params) (rows : List (P × K × ℚ)) (k : K) (part : Part) : List Documented :=
  match part with
  | .sum i =>
    if p.sumBoundsSet = true ∧ p.boundsEnforced = true then
      [{ spec := i, comp := 0, value := ((valuesIn k rows).map fun v => min (max v (p.minSum.getD 0)) (p.maxSum.getD 0)).sum,
         l1 := (idChange p (max |p.minSum.getD 0| |p.maxSum.getD 0|)).1, l2 := (idChange p (max |p.minSum.getD 0| |p.maxSum.getD 0|)).2 }]
    else documented p rows k (.sum i)
  | part => documented p rows k part

/-- What a combiner needs. -/
def PartComputable (p : Params) : Part → Prop
  | .count _ => True
  | .privacyIdCount _ => p.boundsEnforced = false
  | .sum _ =>
    (∃ lo hi, p.minValue = some lo ∧ p.maxValue = some hi ∧ lo ≤ hi ∧ ¬(lo = 0 ∧ hi = 0)) ∨
    (∃ lo hi, p.minSum = some lo ∧ p.maxSum = some hi ∧ lo ≤ 0 ∧ 0 ≤ hi ∧ ¬(lo = 0 ∧ hi = 0) ∧ p.maxContributions = none)
  | .mean _ _ _ => MeanOk p
  | .variance _ _ => MeanOk p ∧ p.maxContributions = none
  | _ => False

theorem parts_computable {fmt : ℚ → String} {p : Params} {rs rs' : List Request} {parts : List Part} (hs : Computable p)
    (h : createCompound fmt p rs = (.ok parts, rs')) : ∀ part ∈ parts, PartComputable p part := by
  have hv : vectorPart p (privacyIdPart p (scalarParts p rs).2).2 = ([], (privacyIdPart p (scalarParts p rs).2).2) := by
    unfold vectorPart
    rw [if_neg]
    intro h
    have := hs.metrics _ h
    simp at this
  have hq : ∀ r, quantilePart p r = ([], r) := by
    intro r
    unfold quantilePart
    have : p.metrics.filterMap Metric.percentile? = [] := by
      rw [List.filterMap_eq_nil_iff]
      intro m hm
      rcases hs.metrics m hm with rfl | rfl | rfl | rfl | rfl <;> rfl
    rw [this]; simp
  unfold createCompound at h
  simp only [hv, hq, List.append_nil] at h
  split at h
  · simp only [Prod.mk.injEq, Except.ok.injEq] at h
    obtain ⟨rfl, -⟩ := h
    intro part hp
    rcases List.mem_append.mp hp with hp | hp
    · unfold scalarParts at hp
      by_cases h1 : Metric.variance ∈ p.metrics
      · rw [if_pos h1] at hp
        simp only [requestBudget, List.mem_singleton] at hp
        subst hp; exact hs.variance h1
      · rw [if_neg h1] at hp
        by_cases h2 : Metric.mean ∈ p.metrics
        · rw [if_pos h2] at hp
          simp only [requestBudget, List.mem_singleton] at hp
          subst hp; exact hs.mean h2 h1
        · rw [if_neg h2] at hp
          by_cases h3 : Metric.count ∈ p.metrics <;> by_cases h4 : Metric.sum ∈ p.metrics <;>
            simp [h3, h4, requestBudget] at hp
          · rcases hp with rfl | rfl
            · trivial
            · exact hs.sum h4 h2 h1
          · subst hp; trivial
          · subst hp; exact hs.sum h4 h2 h1
    · unfold privacyIdPart at hp
      rw [hs.noThresholding] at hp
      by_cases h1 : Metric.privacyIdCount ∈ p.metrics
      · rw [if_pos h1] at hp
        simp only [requestBudget, Bool.false_eq_true, if_false, List.mem_singleton] at hp
        subst hp; exact hs.ids h1
      · rw [if_neg h1] at hp; simp at hp
  · simp at h

/-- The loss of a part, relative to its budget. -/
def partFactor (p : Params) : Part → ℚ
  | .variance _ _ => 1 +
    ((p.maxValue.getD 0 - p.minValue.getD 0) ^ 2 / (2 * squaresLength (p.minValue.getD 0) (p.maxValue.getD 0)) - 1) / 3
  | .sum _ => if p.sumBoundsSet = true ∧ p.boundsEnforced = true then (p.maxPerPartition.getD 0 : ℕ) else 1
  | _ => 1

/-- The loss of all parts in terms of the metrics. -/
theorem parts_factor {fmt : ℚ → String} {p : Params} {rs rs' : List Request} {parts : List Part} (hs : Computable p)
    (h : createCompound fmt p rs = (.ok parts, rs')) :
    (parts.flatMap Part.specs).length = budgetParts p ∧
      (parts.map fun part => partFactor p part * part.specs.length).sum = budgetParts p + excess p := by
  have hv : vectorPart p (privacyIdPart p (scalarParts p rs).2).2 = ([], (privacyIdPart p (scalarParts p rs).2).2) := by
    unfold vectorPart
    rw [if_neg]
    intro h
    have := hs.metrics _ h
    simp at this
  have hq : ∀ r, quantilePart p r = ([], r) := by
    intro r
    unfold quantilePart
    have : p.metrics.filterMap Metric.percentile? = [] := by
      rw [List.filterMap_eq_nil_iff]
      intro m hm
      rcases hs.metrics m hm with rfl | rfl | rfl | rfl | rfl <;> rfl
    rw [this]; simp
  unfold createCompound at h
  simp only [hv, hq, List.append_nil] at h
  split at h
  · simp only [Prod.mk.injEq, Except.ok.injEq] at h
    obtain ⟨rfl, -⟩ := h
    have h2 : ∀ rs, ((privacyIdPart p rs).1.flatMap Part.specs).length = (if Metric.privacyIdCount ∈ p.metrics then 1 else 0) ∧
        ((privacyIdPart p rs).1.map fun part => partFactor p part * part.specs.length).sum
          = ((if Metric.privacyIdCount ∈ p.metrics then 1 else 0 : ℕ) : ℚ) := by
      intro rs
      unfold privacyIdPart
      rw [hs.noThresholding]
      split <;> simp [requestBudget, Part.specs, partFactor]
    rw [List.flatMap_append, List.length_append, List.map_append, List.sum_append, (h2 _).1, (h2 _).2]
    unfold scalarParts budgetParts excess
    by_cases hva : Metric.variance ∈ p.metrics
    · simp only [hva, if_true, requestBudget, List.flatMap_cons, List.flatMap_nil, Part.specs, partFactor, List.map_cons, List.map_nil,
        List.length_append, List.length_cons, List.length_nil, List.sum_cons, List.sum_nil]
      refine ⟨trivial, ?_⟩
      push_cast
      ring
    by_cases hme : Metric.mean ∈ p.metrics
    · simp only [hva, hme, if_true, if_false, requestBudget, List.flatMap_cons, List.flatMap_nil, Part.specs, partFactor, List.map_cons,
        List.map_nil, List.length_append, List.length_cons, List.length_nil, List.sum_cons, List.sum_nil]
      refine ⟨trivial, ?_⟩
      push_cast
      ring
    by_cases hco : Metric.count ∈ p.metrics <;> by_cases hsu : Metric.sum ∈ p.metrics <;>
      by_cases hd : p.sumBoundsSet = true ∧ p.boundsEnforced = true <;>
      simp [hva, hme, hco, hsu, hd, requestBudget, Part.specs, partFactor] <;> ring
  · simp at h

/-! ### The worst user -/

theorem shape_pos {p : Params} (hp : p.BoundsValid) : 1 ≤ (worstShape p).1 ∧ 1 ≤ (worstShape p).2 := by
  unfold worstShape
  rcases hp with ⟨m, hm, h1, -⟩ | ⟨l0, linf, h0, hl, h1, h2, h3⟩
  · rw [h1]; exact ⟨hm, le_rfl⟩
  · rw [h1, h2, h3]; exact ⟨h0, hl⟩

theorem rowChange_shape (p : Params) (a : ℚ) :
    (rowChange p a).1 = (worstShape p).1 * ((worstShape p).2 * (a : ℝ)) := by
  unfold rowChange worstShape
  rcases p.maxContributions with _ | m
  · simp only
    push_cast
    ring
  · simp only
    push_cast
    ring

theorem idChange_shape (p : Params) (a : ℚ) : (idChange p a).1 = (worstShape p).1 * (a : ℝ) := by
  unfold idChange worstShape
  rcases p.maxContributions with _ | m <;> rfl

theorem filter_worst (p : Params) (u : P) {ks : List K} (hks : ks.Nodup) {k : K} (hk : k ∈ ks) :
    ((worstRows p u ks).filter fun r => r.2.1 = k) = List.replicate (worstShape p).2 (u, k, worstValue p) := by
  unfold worstRows
  rw [List.filter_flatMap]
  have h1 : ∀ k', (List.replicate (worstShape p).2 (u, k', worstValue p)).filter (fun r => decide (r.2.1 = k))
      = if k' = k then List.replicate (worstShape p).2 (u, k, worstValue p) else [] := by
    intro k'
    by_cases h : k' = k
    · subst h
      rw [if_pos rfl, List.filter_eq_self]
      intro r hr
      rw [List.eq_of_mem_replicate hr]
      simp
    · rw [if_neg h, List.filter_eq_nil_iff]
      intro r hr
      rw [List.eq_of_mem_replicate hr]
      simpa using h
  simp only [h1]
  clear h1
  induction ks with
  | nil => simp at hk
  | cons a ks ih =>
    rw [List.nodup_cons] at hks
    rw [List.flatMap_cons]
    by_cases h : a = k
    · subst h
      rw [if_pos rfl, List.flatMap_eq_nil_iff.mpr, List.append_nil]
      intro x hx
      rw [if_neg]
      rintro rfl
      exact hks.1 hx
    · rw [if_neg h, List.nil_append]
      exact ih hks.2 ((List.mem_cons.mp hk).resolve_left fun h' => h h'.symm)

theorem valuesIn_worst (p : Params) (u : P) {ks : List K} (hks : ks.Nodup) {k : K} (hk : k ∈ ks) :
    valuesIn k (worstRows p u ks) = List.replicate (worstShape p).2 (worstValue p) := by
  rw [valuesIn, filter_worst p u hks hk, List.map_replicate]

theorem usersIn_worst {p : Params} (hp : p.BoundsValid) (u : P) {ks : List K} (hks : ks.Nodup) {k : K} (hk : k ∈ ks) :
    usersIn k (worstRows p u ks) = [u] := by
  rw [usersIn, filter_worst p u hks hk, List.map_replicate]
  have := (shape_pos hp).2
  obtain ⟨n, hn⟩ : ∃ n, (worstShape p).2 = n + 1 := ⟨(worstShape p).2 - 1, by omega⟩
  rw [hn]
  clear hn this
  induction n with
  | zero => simp
  | succ n ih => rw [List.replicate_succ, List.dedup_cons_of_mem (by simp), ih]

theorem mem_worst {p : Params} {u : P} {ks : List K} {r : P × K × ℚ} (h : r ∈ worstRows p u ks) :
    r.1 = u ∧ r.2.1 ∈ ks ∧ r.2.2 = worstValue p := by
  obtain ⟨k, hk, hr⟩ := List.mem_flatMap.mp h
  rw [List.eq_of_mem_replicate hr]
  exact ⟨rfl, hk, rfl⟩

theorem cell_worst (p : Params) (u : P) {ks : List K} (hks : ks.Nodup) {k : K} (hk : k ∈ ks) :
    cell u k (worstRows p u ks) = List.replicate (worstShape p).2 (worstValue p) := by
  rw [← valuesIn_worst p u hks hk]
  unfold cell valuesIn
  congr 1
  apply List.filter_congr
  intro r hr
  simp [(mem_worst hr).1]

/-! ### The released numbers -/

section Parts

variable {sigma : ℝ → ℝ → ℝ → ℝ} {s : Specs} {ε δ : ℕ → ℝ} {p : Params} {ps : List K}
  (B : Backend) (hB : B.Lawful) (hp : p.BoundsValid) (cs : List (Combiner ℚ))
  {comb : List (K × (Combiner.compound cs).Acc) → List (K × (Combiner.compound cs).Acc)}
  (hcomb : LawfulCombine (Combiner.compound cs).merge comb) (col : List (P × K × ℚ))
  (hf : p.publicFiltered = true → ∀ ps', some ps = some ps' → ∀ r ∈ col, r.2.1 ∈ ps')
  (hw : p.boundsEnforced = false → WithinPartitionBounds p (relevant (some ps) col) ∧ WithinRowBounds p (relevant (some ps) col))
  (hk : p.minValue = none ∨ p.sumBoundsSet = false)
  (h0 : ∀ lo hi, p.minSum = some lo → p.maxSum = some hi → lo ≤ 0 ∧ 0 ≤ hi)

include hB hp hcomb hf hw in
theorem read_rows {M : Type} [AddCommMonoid M] (hbe : p.boundsEnforced = true) (c : Combiner ℚ) (i : Fin cs.length) (hi : cs[i] = c)
    (μ : c.Acc → M) (hμ : ∀ a b, μ (c.merge a b) = μ a + μ b) (hμ0 : μ (c.create []) = 0) :
    ∃ out, partitionAccumulators B cs comb (fun _ _ => true) p (some ps) col = .ok out ∧
      ∀ e ∈ out, μ (Combiner.readAs c i hi e.2) = ((valuesIn e.1 (relevant (some ps) col)).map fun v => μ (c.create [v])).sum := by
  obtain ⟨out, entries, g1, g2, g3, g4, g5, -, -, g8⟩ := output_entries_keys B hB p hp cs comb hcomb (fun _ _ => true) (some ps)
    col hf (fun h => (hw h).1) (fun h _ => (hw h).2)
  refine ⟨out, g1, fun e he => ?_⟩
  obtain ⟨t, n, -, ht1, ht2⟩ := g8 e he
  rw [ht2, read_eval cs c i hi μ hμ, (ht1.map _).sum_eq, List.map_append, List.sum_append, List.map_replicate, readAs_create, hμ0,
    List.sum_replicate, smul_zero, add_zero, List.map_map, ← entries_sum_rows _ e.1 g2]
  congr 1
  apply List.map_congr_left
  intro x hx
  obtain ⟨w, hw'⟩ := List.length_eq_one_iff.mp (g5 hbe x (List.mem_filter.mp hx).1)
  simp only [Function.comp_apply, readAs_create, hw', List.map_cons, List.map_nil, List.sum_cons, List.sum_nil, add_zero]

include hB hp hcomb hf hw in
/-- SUM with bounds per partition, if the engine does not group the rows by privacy id: every row is clipped on its own. -/
theorem sum_of_clipped_rows (hbe : p.boundsEnforced = true) (lo hi : ℚ) (h1 : lo ≤ 0) (h2 : 0 ≤ hi) (i : Fin cs.length)
    (h : cs[i] = Combiner.sumPerPartition lo hi) :
    ∃ out, partitionAccumulators B cs comb (fun _ _ => true) p (some ps) col = .ok out ∧
      ∀ e ∈ out, (Combiner.readAs _ i h e.2 : ℚ)
        = ((valuesIn e.1 (relevant (some ps) col)).map fun v => min (max v lo) hi).sum := by
  obtain ⟨out, g1, g2⟩ := read_rows B hB hp cs hcomb col hf hw hbe (Combiner.sumPerPartition lo hi) i h (fun a : ℚ => a)
    (fun _ _ => rfl) (by simp [Combiner.sumPerPartition, clip, h1, h2])
  refine ⟨out, g1, fun e he => (g2 e he).trans ?_⟩
  simp [Combiner.sumPerPartition, clip]

include hB hp hcomb hf hw hk h0 in
theorem part_numbers_actual {out} (hout : partitionAccumulators B cs comb (fun _ _ => true) p (some ps) col = .ok out)
    (e) (he : e ∈ out) (part : Part) (hok : PartComputable p part)
    (hsp : ∀ i ∈ part.specs, SpecOk s ε δ i (part.mechanism p.noiseKind))
    (i : Fin cs.length) (v : View) (hv : view sigma p part = v) (hi : cs[i] = v.comb) :
    evalView s e.1 v (Combiner.readAs v.comb i hi e.2)
      = .ok ((actual p (relevant (some ps) col) e.1 part).map (Documented.noisy sigma p.noiseKind ε δ e.1)) := by
  have base : PartOk p part → actual p (relevant (some ps) col) e.1 part = documented p (relevant (some ps) col) e.1 part →
      evalView s e.1 v (Combiner.readAs v.comb i hi e.2)
        = .ok ((actual p (relevant (some ps) col) e.1 part).map (Documented.noisy sigma p.noiseKind ε δ e.1)) := by
    intro h1 h2
    rw [h2]
    exact part_numbers B hB hp cs hcomb col hf hw (fun _ => h0) hout e he part (.inl h1) hsp i v hv hi
  cases part with
  | count j => exact base trivial rfl
  | privacyIdCount j => exact base hok rfl
  | mean c j ns => exact base hok rfl
  | thresholding j => exact hok.elim
  | vectorSum j => exact hok.elim
  | quantile j l => exact hok.elim
  | sum j =>
    by_cases hd : p.sumBoundsSet = true ∧ p.boundsEnforced = true
    · obtain ⟨lo, hi', q1, q2, q3, q4, q5, q6⟩ : ∃ lo hi, p.minSum = some lo ∧ p.maxSum = some hi ∧ lo ≤ 0 ∧ 0 ≤ hi ∧
          ¬(lo = 0 ∧ hi = 0) ∧ p.maxContributions = none := by
        rcases hok with ⟨lo, hi', q1, -⟩ | h
        · rcases hk with h | h
          · rw [h] at q1; cases q1
          · rw [h] at hd; simp at hd
        · exact h
      have hmv : p.minValue = none := hk.resolve_right (by rw [hd.1]; simp)
      obtain rfl : p.minSum.getD 0 = lo := by rw [q1]; rfl
      obtain rfl : p.maxSum.getD 0 = hi' := by rw [q2]; rfl
      apply evalView_eq
      simp only [view, hd.1, if_true] at hv
      subst hv
      obtain ⟨out', h1, h2⟩ := sum_of_clipped_rows B hB hp cs hcomb col hf hw hd.2 _ _ q3 q4 i hi
      rw [hout] at h1; cases h1
      simp only [actual, hd, and_self, if_true]
      refine .cons ⟨rfl, rfl, h2 e he, ?_⟩ .nil
      exact additive_noise sigma (hsp j (by simp [Part.specs])) (sensSum_partition_val hp q6 q1 q2 hmv q5)
    · refine base ?_ (by simp only [actual, hd, if_false])
      rcases hok with ⟨lo, hi', q1, q2, q3, q4⟩ | ⟨lo, hi', q1, q2, q3, q4, q5, q6⟩
      · refine .inl ⟨lo, hi', q1, q2, q3, q4, hk.resolve_left (by rw [q1]; simp)⟩
      · have hb : p.sumBoundsSet = true := by unfold Params.sumBoundsSet; rw [q1, q2]; rfl
        refine .inr ⟨lo, hi', q1, q2, q3.trans q4, q5, hk.resolve_right (by rw [hb]; simp), q6, ?_⟩
        simpa [hb] using hd
  | variance j ns =>
    apply evalView_eq
    obtain ⟨⟨lo, hi', q1, q2, q3⟩, q4⟩ := hok
    obtain rfl : p.minValue.getD 0 = lo := by rw [q1]; rfl
    obtain rfl : p.maxValue.getD 0 = hi' := by rw [q2]; rfl
    have hne : ¬ (squaresInterval (p.minValue.getD 0) (p.maxValue.getD 0)).1
        = (squaresInterval (p.minValue.getD 0) (p.maxValue.getD 0)).2 := by
      rcases squares_ne q3 with h | h
      · exact h.ne
      · exact h.ne'
    simp only [view, q3.ne, hne, if_false, List.singleton_append] at hv
    subst hv
    obtain ⟨out', h1, h2⟩ := C61_variance_is_exact B hB p hp (fun _ _ => true) (some ps) cs comb hcomb col hf hw _ _ i hi
    rw [hout] at h1; cases h1
    simp only [actual, documented]
    have hj := hsp j (by simp [Part.specs])
    refine .cons ⟨rfl, rfl, congrArg (fun a : ℕ × ℚ × ℚ => (a.1 : ℚ)) (h2 e he), ?_⟩
      (.cons ⟨rfl, rfl, congrArg (fun a : ℕ × ℚ × ℚ => a.2.1) (h2 e he), ?_⟩
      (.cons ⟨rfl, rfl, congrArg (fun a : ℕ × ℚ × ℚ => a.2.2) (h2 e he), ?_⟩ .nil))
    · exact third_noise sigma hj (by simp [rowChange, q4]) (by simp [rowChange, q4])
    · generalize p.minValue.getD 0 = lo, p.maxValue.getD 0 = hi' at q3
      have hm : meanLinf lo hi' (p.maxPerPartition.getD 0) = (hi' - lo) / 2 * (p.maxPerPartition.getD 0 : ℕ) := by
        unfold meanLinf middle
        rw [show lo + (hi' - lo) / 2 - lo = (hi' - lo) / 2 by ring, abs_of_pos (by linarith)]; ring
      exact third_noise sigma hj (by simp only [rowChange, q4, hm]) (by simp only [rowChange, q4, hm])
    · exact third_noise sigma hj (by simp only [rowChange, q4, meanLinf_squares]) (by simp only [rowChange, q4, meanLinf_squares])

end Parts

/-- What a call with public partitions releases. -/
theorem computable_releases {p : Params} (hs : Computable p) (ps : List K) {fmt : ℚ → String} {rs rs' : List Request} {b : Built}
    (hx : build fmt rs (publicCall p ps : Call (P × K × ℚ) K) = (.ok b, rs')) {s : Specs} {ε δ : ℕ → ℝ}
    (hbo : BuiltOk s ε δ p.noiseKind b) {sigma : ℝ → ℝ → ℝ → ℝ} (env : Env K) (henv : env.Lawful) (data : List (P × K × ℚ))
    (hf : p.publicFiltered = true → ∀ r ∈ data, r.2.1 ∈ ps)
    (hw : p.boundsEnforced = false → WithinPartitionBounds p (relevant (some ps) data) ∧ WithinRowBounds p (relevant (some ps) data)) :
    ∃ L, evalCall sigma s env Prod.fst b data (publicCall p ps) = .ok L ∧ (L.map Candidate.key).Nodup ∧
      (∀ k, k ∈ ps → k ∈ L.map Candidate.key) ∧
      ∀ c ∈ L, c.gate = .always ∧ c.numbers
        = (b.parts.flatMap (actual p (relevant (some ps) data) c.key)).map (Documented.noisy sigma p.noiseKind ε δ c.key) := by
  obtain ⟨⟨rs'', hcreate⟩, hsel⟩ := build_aggregate hx
  have hok := parts_computable hs hcreate
  have hext : extract Prod.fst (fun r : P × K × ℚ => r.2.1) (fun r => r.2.2) data = data := by
    unfold extract
    simp
  have hf' : p.publicFiltered = true → ∀ ps', some ps = some ps' → ∀ r ∈ data, r.2.1 ∈ ps' := by
    intro h ps' hps
    cases hps
    exact hf h
  obtain ⟨out, entries, h1, h2, h3, h4, h5, h6, h7, h8⟩ := output_entries_keys env.backend henv.backend p hs.bounds
    (combinersOf sigma p b.parts) (env.combine (Combiner.compound _).merge) (henv.combine _) (fun _ _ => true) (some ps)
    data hf' (fun h => (hw h).1) (fun h _ => (hw h).2)
  have hcand : ∀ e ∈ out, candidate sigma s p b e = .ok ⟨e.1, .always,
      (b.parts.flatMap (actual p (relevant (some ps) data) e.1)).map (Documented.noisy sigma p.noiseKind ε δ e.1)⟩ := by
    intro e he
    have hselN : b.selection = none := by
      have : selectsPrivately p (some ps) = false := by simp [selectsPrivately]
      rw [this] at hsel
      simpa using hsel
    have hnum := evalParts_of sigma s p e.1 b.parts e.2 (fun part => (actual p (relevant (some ps) data) e.1
      part).map (Documented.noisy sigma p.noiseKind ε δ e.1)) (by
        intro i part v hv hpart hi
        exact part_numbers_actual env.backend henv.backend hs.bounds (combinersOf sigma p b.parts) (henv.combine _) _ hf' hw
          hs.oneKind hs.zero h1 e he part (hok part hpart) (hbo.parts part hpart) i v hv hi)
    unfold candidate
    rw [hnum, ← List.map_flatMap]
    simp only [gateOf, hselN, hs.noThresholding, Bool.false_eq_true, if_false]
  refine ⟨out.map fun e => ⟨e.1, .always,
      (b.parts.flatMap (actual p (relevant (some ps) data) e.1)).map (Documented.noisy sigma p.noiseKind ε δ e.1)⟩, ?_, ?_, ?_, ?_⟩
  · simp only [evalCall, publicCall]
    rw [hext, h1]
    exact mapM_ok' _ _ _ hcand
  · rw [List.map_map]; exact h6
  · intro k hk
    rw [List.map_map]
    exact (h7 (fun _ _ => rfl) k).mpr (.inr ⟨ps, rfl, hk⟩)
  · intro c hc
    obtain ⟨e, -, rfl⟩ := List.mem_map.mp hc
    exact ⟨rfl, rfl⟩

/-! ### The worst user keeps the bounds -/

theorem worst_length (p : Params) (u : P) (ks : List K) : (worstRows p u ks).length = ks.length * (worstShape p).2 := by
  unfold worstRows
  simp [List.length_flatMap]

theorem worst_partitions (p : Params) (u v : P) {ks : List K} :
    (partitionsOf v (worstRows p u ks)).length ≤ ks.length := by
  refine List.Subperm.length_le (List.subperm_of_subset (List.nodup_dedup _) ?_)
  intro k hk
  unfold partitionsOf at hk
  rw [List.mem_dedup] at hk
  obtain ⟨r, hr, rfl⟩ := List.mem_map.mp hk
  exact (mem_worst (List.mem_filter.mp hr).1).2.1

theorem worst_cell (p : Params) (u v : P) {ks : List K} (hks : ks.Nodup) (k : K) :
    (cell v k (worstRows p u ks)).length ≤ (worstShape p).2 := by
  by_cases hk : k ∈ ks
  · have h1 : (cell v k (worstRows p u ks)).length ≤ (valuesIn k (worstRows p u ks)).length := by
      unfold cell valuesIn
      rw [List.length_map, List.length_map]
      refine (List.monotone_filter_right _ ?_).length_le
      intro r
      simp
    rw [valuesIn_worst p u hks hk, List.length_replicate] at h1
    exact h1
  · have : cell v k (worstRows p u ks) = [] := by
      unfold cell
      rw [List.map_eq_nil_iff, List.filter_eq_nil_iff]
      intro r hr
      simp only [decide_eq_true_eq, not_and]
      rintro - rfl
      exact hk (mem_worst hr).2.1
    rw [this]; simp

theorem worst_bounds {p : Params} (hp : p.BoundsValid) (u : P) {ks : List K} (hks : ks.Nodup) (hl : ks.length = (worstShape p).1)
    (v : P) :
    (∀ m, p.maxContributions = some m → ((worstRows p u ks).filter fun r => r.1 = v).length ≤ m) ∧
      (∀ l0, p.maxPartitions = some l0 → (partitionsOf v (worstRows p u ks)).length ≤ l0) ∧
      ∀ linf, p.maxPerPartition = some linf → ∀ k, (cell v k (worstRows p u ks)).length ≤ linf := by
  have h1 := worst_length p u ks
  have h2 := worst_partitions p u v (ks := ks)
  have h3 := worst_cell p u v hks
  rw [hl] at h1 h2
  rcases hp with ⟨m, hm, q1, q2, q3⟩ | ⟨l0, linf, g0, gl, q1, q2, q3⟩
  · simp only [worstShape, q1, mul_one] at h1
    refine ⟨fun m' hm' => ?_, fun l0 h => ?_, fun linf h => ?_⟩
    · rw [q1] at hm'; cases hm'
      exact (List.length_filter_le _ _).trans h1.le
    · rw [q2] at h; cases h
    · rw [q3] at h; cases h
  · simp only [worstShape, q1, q2, q3, Option.getD_some] at h2 h3
    refine ⟨fun m' hm' => ?_, fun l0 h => ?_, fun linf h => ?_⟩
    · rw [q1] at hm'; cases hm'
    · rw [q2] at h; cases h; exact h2
    · rw [q3] at h; cases h; exact h3

theorem relevant_worst (p : Params) (u : P) {ks ps : List K} (h : ∀ k ∈ ks, k ∈ ps) :
    relevant (some ps) (worstRows p u ks) = worstRows p u ks := by
  unfold relevant
  simp only
  rw [List.filter_eq_self]
  intro r hr
  simpa using h _ (mem_worst hr).2.1

theorem removeId_worst (p : Params) (u : P) (ks : List K) : removeId Prod.fst u (worstRows p u ks) = [] := by
  unfold removeId
  rw [List.filter_eq_nil_iff]
  intro r hr
  simp [(mem_worst hr).1]

/-! ### The loss of one combiner -/

theorem clip_farEnd {lo hi : ℚ} (h : lo ≤ hi) : min (max (farEnd lo hi) lo) hi = farEnd lo hi := by
  unfold farEnd
  split
  · rw [max_eq_left h, min_self]
  · rw [max_self, min_eq_left h]

theorem abs_farEnd (lo hi : ℚ) : |farEnd lo hi| = max |lo| |hi| := by
  unfold farEnd
  split
  · rename_i h; rw [max_eq_right h]
  · rename_i h; rw [max_eq_left (not_le.mp h).le]

theorem abs_farEnd_sub {lo hi : ℚ} (h : lo ≤ hi) : |farEnd lo hi - (lo + hi) / 2| = (hi - lo) / 2 := by
  unfold farEnd
  split
  · rw [show hi - (lo + hi) / 2 = (hi - lo) / 2 by ring, abs_of_nonneg (by linarith)]
  · rw [show lo - (lo + hi) / 2 = -((hi - lo) / 2) by ring, abs_neg, abs_of_nonneg (by linarith)]

theorem sq_farEnd_sub (lo hi : ℚ) : (farEnd lo hi - (lo + hi) / 2) ^ 2 = (hi - lo) ^ 2 / 4 := by
  unfold farEnd
  split <;> ring

theorem squaresLength_pos {lo hi : ℚ} (h : lo < hi) : 0 < squaresLength lo hi := by
  unfold squaresLength
  split
  · rename_i h'
    exact lt_of_lt_of_le (by have := h'.2; positivity) (le_max_right _ _)
  · rename_i h'
    rw [abs_pos, sub_ne_zero]
    by_cases h0 : 0 ≤ lo
    · nlinarith
    · have : hi ≤ 0 := by
        by_contra hh; exact h' ⟨lt_of_not_ge h0, lt_of_not_ge hh⟩
      nlinarith

/-- The scale of the Laplace noise of a number. -/
noncomputable def Documented.scale (ε : ℕ → ℝ) (d : Documented) : ℝ := d.l1 / (ε d.spec / d.uses)

theorem actual_nil (p : Params) (rows : List (P × K × ℚ)) (k : K) (part : Part) :
    actual p ([] : List (P × K × ℚ)) k part = (actual p rows k part).map fun d => { d with value := 0 } := by
  cases part with
  | sum i =>
    unfold actual
    by_cases h : p.sumBoundsSet = true ∧ p.boundsEnforced = true
    · simp [h, valuesIn]
    · simp only [h, if_false, documented]
      split <;> simp [usersIn, valuesIn]
  | _ => simp [actual, documented, valuesIn, usersIn]

theorem actual_congr {p : Params} (hp : p.BoundsValid) (u : P) {ks : List K} (hks : ks.Nodup) {k k' : K} (hk : k ∈ ks) (hk' : k' ∈ ks)
    (part : Part) : actual p (worstRows p u ks) k part = actual p (worstRows p u ks) k' part := by
  cases part <;> simp only [actual, documented, valuesIn_worst p u hks hk, valuesIn_worst p u hks hk', usersIn_worst hp u hks hk,
    usersIn_worst hp u hks hk', List.map_cons, List.map_nil, cell_worst p u hks hk, cell_worst p u hks hk']

theorem actual_loss {p : Params} (hs : Computable p) (u : P) {ks : List K} (hks : ks.Nodup) {k : K} (hk : k ∈ ks) {part : Part}
    (hok : PartComputable p part) {ε : ℝ} (hε : 0 < ε) :
    (∀ d ∈ actual p (worstRows p u ks) k part, 0 < d.scale fun _ => ε) ∧
      (worstShape p).1 * ((actual p (worstRows p u ks) k part).map fun d => |(d.value : ℝ)| / d.scale fun _ => ε).sum
        = partFactor p part * part.specs.length * ε := by
  obtain ⟨hn, hc⟩ := shape_pos hs.bounds
  have hn' : (0 : ℝ) < (worstShape p).1 := by exact_mod_cast hn
  have hc' : (0 : ℝ) < (worstShape p).2 := by exact_mod_cast hc
  cases part with
  | count j =>
    simp only [actual, documented, valuesIn_worst p u hks hk, List.length_replicate, Documented.scale, rowChange_shape, List.mem_singleton,
      forall_eq, List.map_cons, List.map_nil, List.sum_cons, List.sum_nil, partFactor, Part.specs, List.length_cons, List.length_nil]
    push_cast
    refine ⟨by positivity, ?_⟩
    rw [abs_of_pos hc']
    field_simp
    simp
  | privacyIdCount j =>
    simp only [actual, documented, usersIn_worst hs.bounds u hks hk, Documented.scale, idChange_shape, List.mem_singleton,
      forall_eq, List.map_cons, List.map_nil, List.sum_cons, List.sum_nil, partFactor, Part.specs, List.length_cons, List.length_nil]
    push_cast
    refine ⟨by positivity, ?_⟩
    rw [abs_one]
    field_simp
    simp
  | sum j =>
    by_cases hd : p.sumBoundsSet = true
    · obtain ⟨lo, hi', q1, q2, q3, q4, q5, q6⟩ : ∃ lo hi, p.minSum = some lo ∧ p.maxSum = some hi ∧ lo ≤ 0 ∧ 0 ≤ hi ∧
          ¬(lo = 0 ∧ hi = 0) ∧ p.maxContributions = none := by
        rcases hok with ⟨lo, hi', q1, -⟩ | h
        · rcases hs.oneKind with h | h
          · rw [h] at q1; cases q1
          · rw [h] at hd; simp at hd
        · exact h
      have ha := max_abs_pos q5
      rw [← abs_farEnd] at ha
      have ha' : (0 : ℝ) < |(farEnd lo hi' : ℝ)| := by exact_mod_cast ha
      have hcl := clip_farEnd (q3.trans q4)
      by_cases he : p.boundsEnforced = true
      · have hc2 : p.maxPerPartition.getD 0 = (worstShape p).2 := by simp [worstShape, q6]
        simp only [actual, hd, he, and_self, if_true, valuesIn_worst p u hks hk, worstValue, q1, q2, Option.getD_some, div_one,
          List.map_replicate, List.sum_replicate, hcl, Documented.scale, idChange_shape, ← abs_farEnd, List.mem_singleton, forall_eq,
          List.map_cons, List.map_nil, List.sum_cons, List.sum_nil, partFactor, Part.specs, List.length_cons, List.length_nil, hc2,
          nsmul_eq_mul]
        push_cast
        refine ⟨by positivity, ?_⟩
        rw [abs_mul, abs_of_pos hc']
        field_simp
        ring
      · have hcz : ((worstShape p).2 : ℚ) ≠ 0 := by exact_mod_cast (by omega : (worstShape p).2 ≠ 0)
        have hv : (List.replicate (worstShape p).2 (worstValue p)).sum = farEnd lo hi' := by
          rw [List.sum_replicate, nsmul_eq_mul]
          simp only [worstValue, hd, he, if_true, if_false, q1, q2, Option.getD_some, Bool.false_eq_true]
          field_simp
        simp only [actual, hd, he, and_false, if_false, documented, q1, q2, usersIn_worst hs.bounds u hks hk, cell_worst p u hks hk, hv,
          hcl, Documented.scale, idChange_shape, ← abs_farEnd, List.mem_singleton, forall_eq, List.map_cons, List.map_nil,
          List.sum_cons, List.sum_nil, partFactor, Part.specs, List.length_cons, List.length_nil, Bool.false_eq_true]
        push_cast
        refine ⟨by positivity, ?_⟩
        rw [add_zero]
        field_simp
        simp
    · obtain ⟨lo, hi', q1, q2, q3, q4⟩ : ∃ lo hi, p.minValue = some lo ∧ p.maxValue = some hi ∧ lo ≤ hi ∧ ¬(lo = 0 ∧ hi = 0) := by
        rcases hok with h | ⟨lo, hi', q1, q2, -⟩
        · exact h
        · exact absurd (by unfold Params.sumBoundsSet; rw [q1, q2]; rfl) hd
      have ha := max_abs_pos q4
      rw [← abs_farEnd] at ha
      have ha' : (0 : ℝ) < |(farEnd lo hi' : ℝ)| := by exact_mod_cast ha
      have hcl := clip_farEnd q3
      have hdoc : documented p (worstRows p u ks) k (.sum j) = [⟨j, 0, ((valuesIn k (worstRows p u ks)).map fun v =>
          min (max v lo) hi').sum, (rowChange p (max |lo| |hi'|)).1, (rowChange p (max |lo| |hi'|)).2, 1⟩] := by
        have e1 : p.minValue.getD 0 = lo := by rw [q1]; rfl
        have e2 : p.maxValue.getD 0 = hi' := by rw [q2]; rfl
        unfold documented
        rcases ha : p.minSum with _ | a <;> rcases hb : p.maxSum with _ | b <;> first | (simp only [e1, e2]; done) | skip
        simp [Params.sumBoundsSet, ha, hb] at hd
      simp only [actual, hd, false_and, if_false, hdoc, valuesIn_worst p u hks hk, worstValue, q1, q2, Option.getD_some,
        List.map_replicate, List.sum_replicate, hcl, Documented.scale, rowChange_shape, ← abs_farEnd, List.mem_singleton, forall_eq,
        List.map_cons, List.map_nil, List.sum_cons, List.sum_nil, partFactor, Part.specs, List.length_cons, List.length_nil,
        nsmul_eq_mul, Bool.false_eq_true]
      push_cast
      refine ⟨by positivity, ?_⟩
      rw [add_zero, abs_mul, abs_of_pos hc']
      field_simp
  | mean c j ns =>
    obtain ⟨lo, hi', q1, q2, q3⟩ := hok
    have hd : ¬ p.sumBoundsSet = true := by
      rcases hs.oneKind with h | h
      · rw [q1] at h; cases h
      · simp [h]
    have hcl := clip_farEnd q3.le
    have hx := abs_farEnd_sub q3.le
    have hx' : |((farEnd lo hi' - (lo + hi') / 2 : ℚ) : ℝ)| = (((hi' - lo) / 2 : ℚ) : ℝ) := by rw [← hx]; push_cast; rfl
    have hp' : (0 : ℝ) < (((hi' - lo) / 2 : ℚ) : ℝ) := by exact_mod_cast (by linarith : (0 : ℚ) < (hi' - lo) / 2)
    simp only [actual, documented, valuesIn_worst p u hks hk, worstValue, hd, if_false, q1, q2, Option.getD_some, List.length_replicate,
      List.map_replicate, List.sum_replicate, hcl, Documented.scale, rowChange_shape, List.mem_cons, List.not_mem_nil, or_false,
      forall_eq_or_imp, forall_eq, List.map_cons, List.map_nil, List.sum_cons, List.sum_nil, partFactor, Part.specs, List.length_cons,
      List.length_nil, nsmul_eq_mul, Rat.cast_mul, abs_mul, hx', Bool.false_eq_true]
    generalize (((hi' - lo) / 2 : ℚ) : ℝ) = a at hp'
    push_cast
    refine ⟨⟨by positivity, by positivity⟩, ?_⟩
    rw [abs_of_pos hc']
    field_simp
    ring
  | variance j ns =>
    obtain ⟨⟨lo, hi', q1, q2, q3⟩, q4⟩ := hok
    have hd : ¬ p.sumBoundsSet = true := by
      rcases hs.oneKind with h | h
      · rw [q1] at h; cases h
      · simp [h]
    have hcl := clip_farEnd q3.le
    have hx := abs_farEnd_sub q3.le
    have hx' : |((farEnd lo hi' - (lo + hi') / 2 : ℚ) : ℝ)| = (((hi' - lo) / 2 : ℚ) : ℝ) := by rw [← hx]; push_cast; rfl
    have hp' : (0 : ℝ) < (((hi' - lo) / 2 : ℚ) : ℝ) := by exact_mod_cast (by linarith : (0 : ℚ) < (hi' - lo) / 2)
    have hsq : 0 < squaresLength lo hi' := squaresLength_pos q3
    have hsq' : (0 : ℝ) < (squaresLength lo hi' : ℝ) := by exact_mod_cast hsq
    have hy : |(((hi' - lo) ^ 2 / 4 : ℚ) : ℝ)| = (((hi' - lo) / 2 : ℚ) : ℝ) ^ 2 := by
      rw [abs_of_nonneg (by positivity)]; push_cast; ring
    have hz : ((1 + ((hi' - lo) ^ 2 / (2 * squaresLength lo hi') - 1) / 3 : ℚ) : ℝ)
        = 1 + ((2 * (((hi' - lo) / 2 : ℚ) : ℝ)) ^ 2 / (2 * (squaresLength lo hi' : ℝ)) - 1) / 3 := by push_cast; ring
    have ht : ((squaresLength lo hi' / 2 : ℚ) : ℝ) = (squaresLength lo hi' : ℝ) / 2 := by push_cast; ring
    simp only [actual, documented, valuesIn_worst p u hks hk, worstValue, hd, if_false, q1, q2, Option.getD_some, List.length_replicate,
      List.map_replicate, List.sum_replicate, hcl, sq_farEnd_sub, Documented.scale, rowChange_shape, List.mem_cons, List.not_mem_nil,
      or_false, forall_eq_or_imp, forall_eq, List.map_cons, List.map_nil, List.sum_cons, List.sum_nil, partFactor, Part.specs,
      List.length_cons, List.length_nil, nsmul_eq_mul, Rat.cast_mul, abs_mul, hx', hy, hz, ht, Bool.false_eq_true]
    generalize (((hi' - lo) / 2 : ℚ) : ℝ) = a at hp'
    push_cast
    refine ⟨⟨by positivity, by positivity, by positivity⟩, ?_⟩
    rw [abs_of_pos hc']
    field_simp
    ring
  | thresholding j => exact hok.elim
  | vectorSum j => exact hok.elim
  | quantile j l => exact hok.elim

theorem actual_labels (p : Params) (rows : List (P × K × ℚ)) (k : K) (part : Part) (h : part.specs.Nodup) :
    (∀ d ∈ actual p rows k part, d.spec ∈ part.specs) ∧ ((actual p rows k part).map fun d => (d.spec, d.comp)).Nodup := by
  cases part with
  | sum i =>
    simp only [actual]
    split
    · simp [Part.specs]
    · simp only [documented]
      split <;> simp [Part.specs]
  | mean c j ns =>
    simp only [Part.specs, List.nodup_cons, List.mem_singleton] at h
    simp [actual, documented, Part.specs, h.1]
  | _ => simp [actual, documented, Part.specs]

theorem labels_nodup (p : Params) (rows : List (P × K × ℚ)) (k : K) {parts : List Part} (h : (parts.flatMap Part.specs).Nodup) :
    ((parts.flatMap (actual p rows k)).map fun d => (d.spec, d.comp)).Nodup := by
  induction parts with
  | nil => simp
  | cons part parts ih =>
    rw [List.flatMap_cons, List.nodup_append] at h
    obtain ⟨h1, h2, h3⟩ := h
    rw [List.flatMap_cons, List.map_append, List.nodup_append]
    refine ⟨(actual_labels p rows k part h1).2, ih h2, ?_⟩
    intro a ha b hb hab
    obtain ⟨d, hd, rfl⟩ := List.mem_map.mp ha
    obtain ⟨d', hd', rfl⟩ := List.mem_map.mp hb
    obtain ⟨q, hq, hd'⟩ := List.mem_flatMap.mp hd'
    have hqn : q.specs.Nodup := (List.nodup_flatMap.mp h2).1 q hq
    refine h3 d.spec ((actual_labels p rows k part h1).1 d hd) d'.spec
      (List.mem_flatMap.mpr ⟨q, hq, (actual_labels p rows k q hqn).1 d' hd'⟩) (congrArg Prod.fst hab)

/-! ### The budget -/

/-- Parameters with the same budgets, for which the whole pipeline is private. -/
def withPlainBounds (p : Params) : Params :=
  { p with minValue := some 0, maxValue := some 1, minSum := none, maxSum := none, boundsEnforced := false }

theorem withPlainBounds_supported {p : Params} (hs : Computable p) (ps : List K) :
    SupportedAggregate (withPlainBounds p) (some ps) where
  bounds := hs.bounds
  weight := hs.weight
  metrics := hs.metrics
  ids _ := rfl
  sum _ _ _ := .inl ⟨0, 1, rfl, rfl, by norm_num, by norm_num, rfl⟩
  mean _ _ := ⟨0, 1, rfl, rfl, by norm_num⟩
  variance h := ⟨⟨0, 1, rfl, rfl, by norm_num, .inl (by norm_num)⟩, (hs.variance h).2⟩
  thresholding h := absurd (hs.noThresholding.symm.trans h) (by simp)
  hidden h := by cases h

theorem plan_plain (fmt : ℚ → String) (p : Params) (ps : List K) :
    planCalls fmt [] [(publicCall (withPlainBounds p) ps : Call (P × K × ℚ) K)] 
      = planCalls fmt [] [(publicCall p ps : Call (P × K × ℚ) K)] := rfl

theorem public_plan (fmt : ℚ → String) {p : Params} (hs : Computable p) (ps : List K) {e d : ℚ} {num ws s0}
    (h0 : Budget.init e d num ws = .ok s0) (ha : AnnouncedCalls num ws [(publicCall p ps : Call (P × K × ℚ) K)]) :
    ∃ b ops rs', planCalls fmt [] [(publicCall p ps : Call (P × K × ℚ) K)] = .ok ([b], ops) ∧
      (Budget.step (Budget.run s0 ops).1 .compute).2 = .unit ∧
      build fmt [] (publicCall p ps : Call (P × K × ℚ) K) = (.ok b, rs') ∧
      ∃ δ, BuiltOk (specOf (Budget.step (Budget.run s0 ops).1 .compute).1) (fun _ => (e : ℝ) / budgetParts p) δ p.noiseKind b := by
  have hnd : ¬ ∃ c ∈ [(publicCall (withPlainBounds p) ps : Call (P × K × ℚ) K)], c.NeedsDelta := by
    rintro ⟨c, hc, h⟩
    rw [List.mem_singleton] at hc
    subst hc
    rcases h with h | h
    · exact absurd (hs.laplace.symm.trans h) (by simp)
    · cases h
  obtain ⟨bs, ops, h1, h2, h3, h4⟩ := planned_budgets fmt [(publicCall (withPlainBounds p) ps : Call (P × K × ℚ) K)]
    (by intro c hc; rw [List.mem_singleton] at hc; subst hc; exact withPlainBounds_supported hs ps)
    (by
      intro p' pub key value h
      simp only [List.mem_singleton, publicCall, Call.aggregate.injEq] at h
      rw [h.1]; exact hs.requested) h0 (fun h => absurd h hnd)
    ⟨fun n hn => ⟨(ha.1 n hn).1, fun c hc => by
      rw [List.mem_singleton] at hc; subst hc; exact (ha.1 n hn).2 (publicCall p ps) (by simp)⟩, fun l hl => ha.2 l hl⟩
  rw [plan_plain fmt p ps] at h1
  obtain ⟨b, rfl⟩ := List.length_eq_one_iff.mp h2
  have hb : ∃ rs', build fmt [] (publicCall p ps : Call (P × K × ℚ) K) = (.ok b, rs') := by
    rcases hx : build fmt [] (publicCall p ps : Call (P × K × ℚ) K) with ⟨r, rs'⟩
    rw [planCalls, hx] at h1
    cases r with
    | error e => simp at h1
    | ok b' =>
      simp only [planCalls, Except.ok.injEq, Prod.mk.injEq, List.cons.injEq, and_true] at h1
      exact ⟨rs', by rw [h1.1]⟩
  obtain ⟨rs', hb⟩ := hb
  refine ⟨b, ops, rs', h1, h3, hb, fun i => (shareDelta d [publicCall (withPlainBounds p) ps] [b]
    ((publicCall (withPlainBounds p) ps : Call (P × K × ℚ) K), b) i : ℝ), ?_⟩
  obtain ⟨⟨rs1, hcreate⟩, hsel⟩ := build_aggregate hb
  have hselN : b.selection = none := by
    have : selectsPrivately p (some ps) = false := by simp [selectsPrivately]
    rw [this] at hsel
    simpa using hsel
  have hN := (parts_factor hs hcreate).1
  have hw : p.budgetWeight ≠ 0 := hs.weight.ne'
  have hbo := h4 _ (by simp : ((publicCall (withPlainBounds p) ps : Call (P × K × ℚ) K), b) ∈ _)
  have heps : ∀ i, ((shareEps e [(publicCall (withPlainBounds p) ps : Call (P × K × ℚ) K)]
      ((publicCall (withPlainBounds p) ps : Call (P × K × ℚ) K), b) i : ℚ) : ℝ) = (e : ℝ) / budgetParts p := by
    intro i
    have : shareEps e [(publicCall (withPlainBounds p) ps : Call (P × K × ℚ) K)]
      ((publicCall (withPlainBounds p) ps : Call (P × K × ℚ) K), b) i = e / budgetParts p := by
      have hwt : Call.weight (publicCall (withPlainBounds p) ps : Call (P × K × ℚ) K) = p.budgetWeight := rfl
      have hin : innerWeight ((publicCall (withPlainBounds p) ps : Call (P × K × ℚ) K), b) = fun _ => p.budgetWeight := by
        funext i
        simp [innerWeight, hselN, hwt]
      simp only [shareEps, budgetPart, hin, hwt, Built.specs, hselN, Option.toList_none, List.append_nil, List.map_const', hN,
        List.sum_replicate, nsmul_eq_mul, List.map_cons, List.map_nil, List.sum_cons, List.sum_nil, add_zero]
      by_cases hz : (budgetParts p : ℚ) = 0
      · simp [hz]
      · field_simp
    rw [this]; push_cast; rfl
  have hbo' := hbo
  simp only [heps] at hbo'
  exact hbo'

theorem sum_flatMap' {A : Type} (l : List A) (g : A → List ℝ) : (l.flatMap g).sum = (l.map fun a => (g a).sum).sum := by
  induction l with
  | nil => rfl
  | cons a l ih => simp [List.flatMap_cons, ih]

theorem budgetParts_pos {p : Params} (hs : Computable p) : 0 < budgetParts p := by
  obtain ⟨m, hm⟩ := List.exists_mem_of_ne_nil _ hs.requested
  unfold budgetParts
  rcases hs.metrics m hm with rfl | rfl | rfl | rfl | rfl <;> simp only [hm, if_true] <;> (try split) <;> (try split) <;> omega

/-! ### The observed loss -/

theorem numberLaw_of {L : List (Candidate K)} (hL : (L.map Candidate.key).Nodup) {c : Candidate K} (hc : c ∈ L)
    {D : List Documented} {sigma : ℝ → ℝ → ℝ → ℝ} {ε δ : ℕ → ℝ} (hn : c.numbers = D.map (Documented.noisy sigma .laplace ε δ c.key))
    (hD : (D.map fun d => (d.spec, d.comp)).Nodup) {d : Documented} (hd : d ∈ D) :
    numberLaw L c.key (d.spec, d.comp) = noisy (.laplace (d.scale ε) d.l1) (d.value : ℝ) := by
  have h1 : L.find? (fun c' => c'.key = c.key) = some c := by
    rcases hf : L.find? (fun c' => c'.key = c.key) with _ | c'
    · have := List.find?_eq_none.mp hf c hc
      simp at this
    · have m1 := List.mem_of_find?_eq_some hf
      have m2 := List.find?_some hf
      rw [hf, List.inj_on_of_nodup_map hL m1 hc (by simpa using m2)]
  have h2 : D.find? (fun d' => (d'.spec, d'.comp) = (d.spec, d.comp)) = some d := by
    rcases hf : D.find? (fun d' => (d'.spec, d'.comp) = (d.spec, d.comp)) with _ | d'
    · have := List.find?_eq_none.mp hf d hd
      simp at this
    · have m1 := List.mem_of_find?_eq_some hf
      have m2 := List.find?_some hf
      rw [hf, List.inj_on_of_nodup_map hD m1 hd (by simpa using m2)]
  unfold numberLaw
  rw [h1]
  dsimp only
  rw [hn, List.find?_map]
  have h3 : ((fun n : Noisy K => decide ((n.spec, n.comp) = (d.spec, d.comp))) ∘ Documented.noisy sigma .laplace ε δ c.key)
      = fun d' => decide ((d'.spec, d'.comp) = (d.spec, d.comp)) := rfl
  rw [h3, h2]
  rfl

/-- **C80** (the loss of one user).  One `aggregate` call with public partitions `ps` and Laplace noise, on a naive accountant with
epsilon `e`.  The user `u` has as many rows as allowed, with the extreme value, in partitions `ks`, and keeps what the caller
promises.  If the results with and without this user are `(e', d')`-indistinguishable, then `d'` is at least a positive multiple
of `1 - exp (e' - e * (1 + excess / parts))`: no `e'` below `e * (1 + excess / parts)` is possible with `d' = 0`. -/
theorem C80_loss_of_one_user (fmt : ℚ → String) (lib : Library) {p : Params} (hs : Computable p) {e d : ℚ} {num ws s0}
    (h0 : Budget.init e d num ws = .ok s0) (u : P) {ps ks : List K} (hks : ks.Nodup) (hsub : ∀ k ∈ ks, k ∈ ps)
    (hl : ks.length = (worstShape p).1) (ha : AnnouncedCalls num ws [(publicCall p ps : Call (P × K × ℚ) K)])
    (env : ℕ → Env K) (henv : ∀ j, (env j).Lawful) :
    (publicCall p ps).Promised Prod.fst (worstRows p u ks) u ∧
    ∃ bs ops, planCalls fmt [] [(publicCall p ps : Call (P × K × ℚ) K)] = .ok (bs, ops) ∧
      (Budget.step (Budget.run s0 ops).1 .compute).2 = .unit ∧
      let s := specOf (Budget.step (Budget.run s0 ops).1 .compute).1
      ∃ L L', evalCalls lib.sigma s env Prod.fst (worstRows p u ks) 0 [publicCall p ps] bs = .ok L ∧
        evalCalls lib.sigma s env Prod.fst (removeId Prod.fst u (worstRows p u ks)) 0 [publicCall p ps] bs = .ok L' ∧
        ∃ (U : Finset (ℕ × K)) (S : Finset (ℕ × ℕ)) (c : ℝ), 0 < c ∧ ∀ e' d' : ℝ, 0 ≤ d' →
          Indist e' d' (observedLaw lib U S L) (observedLaw lib U S L') →
          c * (1 - Real.exp (e' - e * (1 + excess p / budgetParts p))) ≤ d' := by
  have hbnd := fun v => worst_bounds hs.bounds u hks hl v
  have hext : extract Prod.fst (fun r : P × K × ℚ => r.2.1) (fun r => r.2.2) (worstRows p u ks) = worstRows p u ks := by
    unfold extract
    simp
  refine ⟨?_, ?_⟩
  · simp only [Call.Promised, publicCall, hext]
    refine ⟨⟨fun _ => hbnd u, fun _ => (hbnd u).2.1⟩, fun _ ps' hps r hr => ?_⟩
    cases hps
    exact hsub _ (mem_worst hr).2.1
  obtain ⟨b, ops, rs', h1, h2, h3, δ, h4⟩ := public_plan (P := P) fmt hs ps h0 ha
  refine ⟨[b], ops, h1, h2, ?_⟩
  intro s
  obtain ⟨⟨rs1, hcreate⟩, -⟩ := build_aggregate h3
  obtain ⟨hN, hfac⟩ := parts_factor hs hcreate
  have hok := parts_computable hs hcreate
  obtain ⟨X, x1, x2, x3, x4⟩ := computable_releases (sigma := lib.sigma) hs ps h3 h4 (env 0) (henv 0) (worstRows p u ks)
    (fun _ r hr => hsub _ (mem_worst hr).2.1) (fun _ => by
      rw [relevant_worst p u hsub]
      exact ⟨fun v => ⟨(hbnd v).1, fun _ => (hbnd v).2.1⟩, fun v k linf h => (hbnd v).2.2 linf h k⟩)
  obtain ⟨Y, y1, y2, y3, y4⟩ := computable_releases (P := P) (sigma := lib.sigma) hs ps h3 h4 (env 0) (henv 0) []
    (fun _ r hr => by simp at hr) (fun _ => by
      refine ⟨fun v => ⟨fun m _ => ?_, fun _ l0 _ => ?_⟩, fun v k linf _ => ?_⟩ <;> simp [relevant, partitionsOf, cell])
  rw [removeId_worst]
  refine ⟨[X], [Y], by simp only [evalCalls, s, x1], by simp only [evalCalls, s, y1], ?_⟩
  rw [relevant_worst p u hsub] at x4
  rw [hs.laplace] at x4 y4
  obtain ⟨hn, -⟩ := shape_pos hs.bounds
  obtain ⟨k0, hk0⟩ : ∃ k0, k0 ∈ ks := List.exists_mem_of_ne_nil _ (by rintro rfl; simp at hl; omega)
  set ε : ℝ := (e : ℝ) / budgetParts p with hε
  set D := b.parts.flatMap (actual p (worstRows p u ks) k0) with hD
  have hlab : (D.map fun d => (d.spec, d.comp)).Nodup := labels_nodup _ _ _ h4.nodup
  have hNpos := budgetParts_pos hs
  have hεpos : 0 < ε := by
    have he : 0 < e := (Budget.init_facts h0).1
    have : (0 : ℝ) < e := by exact_mod_cast he
    have : (0 : ℝ) < budgetParts p := by exact_mod_cast hNpos
    positivity
  have hscale : ∀ d ∈ D, 0 < d.scale fun _ => ε := by
    intro d hd
    obtain ⟨part, hpart, hd⟩ := List.mem_flatMap.mp hd
    exact (actual_loss hs u hks hk0 (hok part hpart) hεpos).1 d hd
  have hx : ∀ k ∈ ks, ∀ d ∈ D, numberLaw X k (d.spec, d.comp) = noisy (.laplace (d.scale fun _ => ε) d.l1) (d.value : ℝ) := by
    intro k hk d hd
    obtain ⟨c, hc, rfl⟩ := List.mem_map.mp (x3 k (hsub k hk))
    refine numberLaw_of (sigma := lib.sigma) (δ := δ) x2 hc ((x4 c hc).2.trans ?_) hlab hd
    congr 1
    apply List.flatMap_congr
    intro part _
    exact actual_congr hs.bounds u hks hk hk0 part
  have hy : ∀ k ∈ ks, ∀ d ∈ D, numberLaw Y k (d.spec, d.comp) = noisy (.laplace (d.scale fun _ => ε) d.l1) 0 := by
    intro k hk d hd
    obtain ⟨c, hc, rfl⟩ := List.mem_map.mp (y3 k (hsub k hk))
    have e1 : b.parts.flatMap (actual p ([] : List (P × K × ℚ)) c.key) = D.map fun d => { d with value := 0 } := by
      rw [hD, List.map_flatMap]
      apply List.flatMap_congr
      intro part _
      exact actual_nil p _ c.key part |>.trans (by rw [actual_congr hs.bounds u hks hk hk0 part])
    have := numberLaw_of y2 hc (D := D.map fun d => { d with value := 0 }) ((y4 c hc).2.trans (by
      rw [show relevant (some ps) ([] : List (P × K × ℚ)) = [] from rfl, e1])) (by rw [List.map_map]; exact hlab)
      (d := { d with value := 0 }) (List.mem_map.mpr ⟨d, hd, rfl⟩)
    simpa [Documented.scale] using this
  let U : Finset (ℕ × K) := (ks.map fun k => (0, k)).toFinset
  let S : Finset (ℕ × ℕ) := (D.map fun d => (d.spec, d.comp)).toFinset
  have hU : ∀ w : U, w.1.1 = 0 ∧ w.1.2 ∈ ks := by
    rintro ⟨w, hw⟩
    obtain ⟨k, hk, rfl⟩ := List.mem_map.mp (List.mem_toFinset.mp hw)
    exact ⟨rfl, hk⟩
  have hS : ∀ l : S, ∃ d ∈ D, (d.spec, d.comp) = l.1 := by
    rintro ⟨l, hl⟩
    exact List.mem_map.mp (List.mem_toFinset.mp hl)
  choose f hf1 hf2 using hS
  have gx : ∀ i : U × S, numberLaw (([X] : List _).getD i.1.1.1 []) i.1.1.2 i.2.1
      = noisy (.laplace ((f i.2).scale fun _ => ε) (f i.2).l1) ((f i.2).value : ℝ) := by
    intro i
    rw [(hU i.1).1, ← hf2 i.2]
    exact hx _ (hU i.1).2 _ (hf1 i.2)
  have gy : ∀ i : U × S, numberLaw (([Y] : List _).getD i.1.1.1 []) i.1.1.2 i.2.1
      = noisy (.laplace ((f i.2).scale fun _ => ε) (f i.2).l1) 0 := by
    intro i
    rw [(hU i.1).1, ← hf2 i.2]
    exact hy _ (hU i.1).2 _ (hf1 i.2)
  have hdec : ∀ Z : List (Candidate K), (∀ k ∈ ps, k ∈ Z.map Candidate.key) → (∀ c ∈ Z, c.gate = .always) →
      ∀ w : U, decisionLaw lib (([Z] : List _).getD w.1.1 []) w.1.2 = Measure.dirac (true, 0) := by
    intro Z z1 z2 w
    rw [(hU w).1]
    show decisionLaw lib Z w.1.2 = _
    unfold decisionLaw
    rcases hf : Z.find? (fun c => c.key = w.1.2) with _ | c
    · obtain ⟨c, hc, hck⟩ := List.mem_map.mp (z1 _ (hsub _ (hU w).2))
      have := List.find?_eq_none.mp hf c hc
      simp [hck] at this
    · rw [hf]
      dsimp only
      rw [z2 c (List.mem_of_find?_eq_some hf)]
      rfl
  refine ⟨U, S, (1 / 2) ^ Fintype.card (U × S), by positivity, ?_⟩
  intro e' d' hd' hind
  have hb : ∀ i : U × S, 0 < (f i.2).scale fun _ => ε := fun i => hscale _ (hf1 i.2)
  rw [observedLaw_always lib U S [X] (hdec X x3 fun c hc => (x4 c hc).1) (fun i => by rw [gx]; exact noisy_laplace_prob (hb i) _ _),
    observedLaw_always lib U S [Y] (hdec Y y3 fun c hc => (y4 c hc).1) (fun i => by rw [gy]; exact noisy_laplace_prob (hb i) _ _)] at hind
  have hind' := hind.map (f := Prod.snd) measurable_snd
  rw [Measure.map_map measurable_snd measurable_prodMk_left, Measure.map_map measurable_snd measurable_prodMk_left] at hind'
  have hid : (Prod.snd ∘ fun g : U × S → ℝ => ((fun _ : U => ((true, 0) : Bool × ℝ)), g)) = id := rfl
  rw [hid, Measure.map_id, Measure.map_id] at hind'
  simp only [gx, gy] at hind'
  have key := laplace_loss hb (fun i => (f i.2).l1) (fun i => ((f i.2).value : ℝ)) (fun _ => 0) hd' hind'
  have hsum : ∑ i : U × S, |((f i.2).value : ℝ) - 0| / ((f i.2).scale fun _ => ε) = e * (1 + excess p / budgetParts p) := by
    rw [Fintype.sum_prod_type]
    simp only [sub_zero, Finset.sum_const, Finset.card_univ, nsmul_eq_mul]
    have c1 : Fintype.card U = (worstShape p).1 := by
      rw [Fintype.card_coe, List.toFinset_card_of_nodup (hks.map fun a b h => by simpa using h), List.length_map, hl]
    have c2 : ∑ l : S, |((f l).value : ℝ)| / ((f l).scale fun _ => ε) = (D.map fun d => |(d.value : ℝ)| / d.scale fun _ => ε).sum := by
      classical
      let G : ℕ × ℕ → ℝ := fun l => if h : l ∈ S then |((f ⟨l, h⟩).value : ℝ)| / ((f ⟨l, h⟩).scale fun _ => ε) else 0
      have g1 : ∀ l : S, |((f l).value : ℝ)| / ((f l).scale fun _ => ε) = G l.1 := by
        intro l
        simp only [G, dif_pos l.2]
      rw [Finset.sum_congr rfl fun l _ => g1 l, Finset.sum_coe_sort S G, List.sum_toFinset _ hlab, List.map_map]
      congr 1
      apply List.map_congr_left
      intro d hd
      have hdS : (d.spec, d.comp) ∈ S := List.mem_toFinset.mpr (List.mem_map.mpr ⟨d, hd, rfl⟩)
      have : f ⟨_, hdS⟩ = d := List.inj_on_of_nodup_map hlab (hf1 _) hd (hf2 ⟨_, hdS⟩)
      simp only [Function.comp_apply, G, dif_pos hdS, this]
    rw [c1, c2, hD, List.map_flatMap, sum_flatMap', ← List.sum_map_mul_left]
    rw [List.map_congr_left (g := fun part : Part => ((partFactor p part * part.specs.length : ℚ) : ℝ) * ε) (fun part hpart => by
      rw [(actual_loss hs u hks hk0 (hok part hpart) hεpos).2]; push_cast; rfl)]
    rw [List.sum_map_mul_right]
    have : ((b.parts.map fun part => ((partFactor p part * part.specs.length : ℚ) : ℝ)).sum)
        = (((b.parts.map fun part => partFactor p part * part.specs.length).sum : ℚ) : ℝ) := by
      rw [Rat.cast_list_sum, List.map_map]
      rfl
    rw [this, hfac, hε]
    have : (0 : ℝ) < budgetParts p := by exact_mod_cast hNpos
    push_cast
    field_simp
  rw [hsum] at key
  exact key

/-- The noise is too small: VARIANCE with bounds on both sides of 0 of which none is much farther from it (C17), or SUM with bounds
per partition while the caller enforces the bounds and a user may have several rows in a partition (C16). -/
def Defective (p : Params) : Prop :=
  (Metric.variance ∈ p.metrics ∧ ¬ SquaresCovered (p.minValue.getD 0) (p.maxValue.getD 0)) ∨
  (Metric.variance ∉ p.metrics ∧ Metric.mean ∉ p.metrics ∧ Metric.sum ∈ p.metrics ∧ p.sumBoundsSet = true ∧
    p.boundsEnforced = true ∧ 1 < p.maxPerPartition.getD 0)

theorem excess_pos {p : Params} (hs : Computable p) (h : Defective p) : 0 < excess p := by
  unfold excess
  rcases h with ⟨h1, h2⟩ | ⟨h1, h2, h3, h4, h5, h6⟩
  · rw [if_pos h1]
    obtain ⟨⟨lo, hi, q1, q2, q3⟩, -⟩ := hs.variance h1
    rw [q1, q2] at h2 ⊢
    simp only [Option.getD_some] at h2 ⊢
    unfold SquaresCovered at h2
    push Not at h2
    have hpos := squaresLength_pos q3
    have hlen : squaresLength lo hi = max (lo ^ 2) (hi ^ 2) := by unfold squaresLength; rw [if_pos h2.1]
    have : 1 < (hi - lo) ^ 2 / (2 * squaresLength lo hi) := by
      rw [lt_div_iff₀ (by linarith), hlen]
      linarith [h2.2]
    linarith
  · rw [if_neg h1, if_neg h2, if_pos ⟨h3, h4, h5⟩]
    have : (1 : ℚ) < (p.maxPerPartition.getD 0 : ℕ) := by exact_mod_cast h6
    linarith

/-- **C80** (defects).  With VARIANCE or SUM outside the covered cases, a call is not differentially private with the epsilon `e` of
the accountant, whatever small delta is allowed: there is a user who keeps all bounds and who can be detected. -/
theorem C80_defects_break_privacy (fmt : ℚ → String) (lib : Library) {p : Params} (hs : Computable p) (hdef : Defective p)
    {e d : ℚ} {num ws s0} (h0 : Budget.init e d num ws = .ok s0) (u : P) {ps ks : List K} (hks : ks.Nodup)
    (hsub : ∀ k ∈ ks, k ∈ ps) (hl : ks.length = (worstShape p).1)
    (ha : AnnouncedCalls num ws [(publicCall p ps : Call (P × K × ℚ) K)]) (env : ℕ → Env K) (henv : ∀ j, (env j).Lawful) :
    (publicCall p ps).Promised Prod.fst (worstRows p u ks) u ∧
    ∃ bs ops, planCalls fmt [] [(publicCall p ps : Call (P × K × ℚ) K)] = .ok (bs, ops) ∧
      (Budget.step (Budget.run s0 ops).1 .compute).2 = .unit ∧
      let s := specOf (Budget.step (Budget.run s0 ops).1 .compute).1
      ∃ L L', evalCalls lib.sigma s env Prod.fst (worstRows p u ks) 0 [publicCall p ps] bs = .ok L ∧
        evalCalls lib.sigma s env Prod.fst (removeId Prod.fst u (worstRows p u ks)) 0 [publicCall p ps] bs = .ok L' ∧
        ∃ (U : Finset (ℕ × K)) (S : Finset (ℕ × ℕ)) (γ : ℝ), 0 < γ ∧ ∀ d' : ℝ, 0 ≤ d' → d' < γ →
          ¬ Indist e d' (observedLaw lib U S L) (observedLaw lib U S L') := by
  obtain ⟨g0, bs, ops, g1, g2, L, L', g3, g4, U, S, c, hc, g5⟩ := C80_loss_of_one_user fmt lib hs h0 u hks hsub hl ha env henv
  refine ⟨g0, bs, ops, g1, g2, L, L', g3, g4, U, S, c * (1 - Real.exp (e - e * (1 + excess p / budgetParts p))), ?_, ?_⟩
  · apply mul_pos hc
    rw [sub_pos, Real.exp_lt_one_iff]
    have h1 : (0 : ℝ) < e := by exact_mod_cast (Budget.init_facts h0).1
    have h2 : (0 : ℝ) < budgetParts p := by exact_mod_cast budgetParts_pos hs
    have h3 : (0 : ℝ) < excess p := by exact_mod_cast excess_pos hs hdef
    have : 0 < (e : ℝ) * (excess p / budgetParts p) := by positivity
    linarith
  · intro d' h1 h2 h3
    exact absurd (g5 e d' h1 h3) (not_le.mpr h2)

theorem supported_of_computable {p : Params} (hs : Computable p) (hdef : ¬ Defective p)
    (hlin : p.sumBoundsSet = true → p.boundsEnforced = true → p.maxPerPartition ≠ some 1) (ps : List K) :
    SupportedAggregate p (some ps) where
  bounds := hs.bounds
  weight := hs.weight
  metrics := hs.metrics
  ids := hs.ids
  sum h1 h2 h3 := by
    rcases hs.sum h1 h2 h3 with ⟨lo, hi, q1, q2, q3, q4⟩ | ⟨lo, hi, q1, q2, q3, q4, q5, q6⟩
    · exact .inl ⟨lo, hi, q1, q2, q3, q4, hs.oneKind.resolve_left (by rw [q1]; simp)⟩
    · have hb : p.sumBoundsSet = true := by unfold Params.sumBoundsSet; rw [q1, q2]; rfl
      refine .inr ⟨lo, hi, q1, q2, q3.trans q4, q5, hs.oneKind.resolve_right (by rw [hb]; simp), q6, ?_⟩
      by_contra he
      have he : p.boundsEnforced = true := by simpa using he
      apply hdef
      refine .inr ⟨h3, h2, h1, hb, he, ?_⟩
      have hl := hlin hb he
      rcases hs.bounds with ⟨m, hm, r1, -⟩ | ⟨l0, linf, r0, r1, r2, r3, r4⟩
      · rw [q6] at r1; cases r1
      · rw [r4] at hl ⊢
        simp at hl ⊢
        omega
  mean := hs.mean
  variance h := by
    obtain ⟨⟨lo, hi, q1, q2, q3⟩, q4⟩ := hs.variance h
    refine ⟨⟨lo, hi, q1, q2, q3, ?_⟩, q4⟩
    by_contra hc
    exact hdef (.inl ⟨h, by rw [q1, q2]; exact hc⟩)
  thresholding h := absurd (hs.noThresholding.symm.trans h) (by simp)
  hidden h := by cases h

/-- **C80** (exactly the defects).  A call with Laplace noise and enough public partitions is differentially private with the
epsilon `e` of the accountant, for all data and all users within what the caller promises, exactly if it has none of the two
defects. -/
theorem C80_private_exactly_without_defects (fmt : ℚ → String) (lib : Library) (hlib : lib.Contract) {p : Params}
    (hs : Computable p) (hlin : p.sumBoundsSet = true → p.boundsEnforced = true → p.maxPerPartition ≠ some 1)
    {e : ℚ} {num ws s0} (h0 : Budget.init e 0 num ws = .ok s0) [Nonempty P] {ps ks : List K} (hks : ks.Nodup)
    (hsub : ∀ k ∈ ks, k ∈ ps) (hl : ks.length = (worstShape p).1)
    (ha : AnnouncedCalls num ws [(publicCall p ps : Call (P × K × ℚ) K)]) (env : ℕ → Env K) (henv : ∀ j, (env j).Lawful) :
    ∃ bs ops, planCalls fmt [] [(publicCall p ps : Call (P × K × ℚ) K)] = .ok (bs, ops) ∧
      (Budget.step (Budget.run s0 ops).1 .compute).2 = .unit ∧
      let s := specOf (Budget.step (Budget.run s0 ops).1 .compute).1
      ((∀ (data : List (P × K × ℚ)) (u : P), (publicCall p ps).Promised Prod.fst data u →
        ∃ L L', evalCalls lib.sigma s env Prod.fst data 0 [publicCall p ps] bs = .ok L ∧
          evalCalls lib.sigma s env Prod.fst (removeId Prod.fst u data) 0 [publicCall p ps] bs = .ok L' ∧
          ∀ U S, Indist e 0 (observedLaw lib U S L) (observedLaw lib U S L') ∧
            Indist e 0 (observedLaw lib U S L') (observedLaw lib U S L)) ↔ ¬ Defective p) := by
  obtain ⟨b, ops, rs', h1, h2, -⟩ := public_plan (P := P) fmt hs ps h0 ha
  refine ⟨[b], ops, h1, h2, ?_⟩
  intro s
  constructor
  · intro h hdef
    obtain ⟨u⟩ := ‹Nonempty P›
    obtain ⟨g0, bs', ops', g1, g2, L, L', g3, g4, U, S, γ, hγ, g5⟩ :=
      C80_defects_break_privacy fmt lib hs hdef h0 u hks hsub hl ha env henv
    rw [h1] at g1
    simp only [Except.ok.injEq, Prod.mk.injEq] at g1
    obtain ⟨rfl, rfl⟩ := g1
    obtain ⟨M, M', k1, k2, k3⟩ := h _ u g0
    rw [g3] at k1; cases k1
    rw [g4] at k2; cases k2
    exact g5 0 le_rfl hγ (k3 U S).1
  · intro hdef data u hu
    have hsup := supported_of_computable hs hdef hlin ps
    obtain ⟨L, L', k1, k2⟩ := C62_pipeline_is_differentially_private fmt lib hlib h0
      [(publicCall p ps : Call (P × K × ℚ) K)] (by intro c hc; rw [List.mem_singleton] at hc; subst hc; exact hsup)
      (by
        rintro ⟨c, hc, h⟩
        rw [List.mem_singleton] at hc
        subst hc
        rcases h with h | h
        · exact absurd (hs.laplace.symm.trans h) (by simp)
        · cases h) h1 h2 (Measure.dirac ()) (fun _ => env) (fun _ => henv) Prod.fst data u
      (by intro c hc; rw [List.mem_singleton] at hc; subst hc; exact hu)
    refine ⟨L (), L' (), (k1 ()).1, (k1 ()).2, fun U S => ⟨fun A hA => ?_, fun A hA => ?_⟩⟩
    · have := ((k2 U S).2 A hA).1
      simpa using this
    · have := ((k2 U S).2 A hA).2
      simpa using this

/-- **C80** (the promise is tight).  Without VARIANCE and without the defect of SUM, the epsilon of the accountant is the smallest
with which the results with and without the user are indistinguishable: noise is not larger than needed. -/
theorem C80_promised_epsilon_is_attained (fmt : ℚ → String) (lib : Library) (hlib : lib.Contract) {p : Params}
    (hs : Computable p) (hvar : Metric.variance ∉ p.metrics)
    (hsum : p.sumBoundsSet = true → p.boundsEnforced = false) {e : ℚ} {num ws s0} (h0 : Budget.init e 0 num ws = .ok s0) (u : P)
    {ps ks : List K} (hks : ks.Nodup) (hsub : ∀ k ∈ ks, k ∈ ps) (hl : ks.length = (worstShape p).1)
    (ha : AnnouncedCalls num ws [(publicCall p ps : Call (P × K × ℚ) K)]) (env : ℕ → Env K) (henv : ∀ j, (env j).Lawful) :
    ∃ bs ops, planCalls fmt [] [(publicCall p ps : Call (P × K × ℚ) K)] = .ok (bs, ops) ∧
      (Budget.step (Budget.run s0 ops).1 .compute).2 = .unit ∧
      let s := specOf (Budget.step (Budget.run s0 ops).1 .compute).1
      ∃ L L', evalCalls lib.sigma s env Prod.fst (worstRows p u ks) 0 [publicCall p ps] bs = .ok L ∧
        evalCalls lib.sigma s env Prod.fst (removeId Prod.fst u (worstRows p u ks)) 0 [publicCall p ps] bs = .ok L' ∧
        ∀ e' : ℝ, (∀ U S, Indist e' 0 (observedLaw lib U S L) (observedLaw lib U S L')) ↔ e ≤ e' := by
  have hex : excess p = 0 := by
    unfold excess
    rw [if_neg hvar]
    split
    · rfl
    · rw [if_neg]
      rintro ⟨-, h1, h2⟩
      rw [hsum h1] at h2; cases h2
  have hdef : ¬ Defective p := by
    rintro (⟨h, -⟩ | ⟨-, -, -, h1, h2, -⟩)
    · exact hvar h
    · rw [hsum h1] at h2; cases h2
  have : Nonempty P := ⟨u⟩
  obtain ⟨bs, ops, h1, h2, h3⟩ := C80_private_exactly_without_defects (P := P) fmt lib hlib hs
    (fun h1 h2 => by rw [hsum h1] at h2; cases h2) h0  hks hsub hl ha env henv
  obtain ⟨g0, bs', ops', g1, g2, L, L', g3, g4, U, S, c, hc, g5⟩ := C80_loss_of_one_user fmt lib hs h0 u hks hsub hl ha env henv
  rw [h1] at g1
  simp only [Except.ok.injEq, Prod.mk.injEq] at g1
  obtain ⟨rfl, rfl⟩ := g1
  refine ⟨bs, ops, h1, h2, L, L', g3, g4, fun e' => ⟨fun h => ?_, fun h U S => ?_⟩⟩
  · have := g5 e' 0 le_rfl (h U S)
    rw [hex] at this
    simp only [Rat.cast_zero, zero_div, add_zero, mul_one] at this
    have h4 : 1 - Real.exp (e' - e) ≤ 0 := by
      by_contra hcon
      exact absurd this (not_le.mpr (mul_pos hc (not_le.mp hcon)))
    have h5 : 1 ≤ Real.exp (e' - e) := by linarith
    rw [Real.one_le_exp_iff] at h5
    linarith
  · obtain ⟨M, M', k1, k2, k3⟩ := h3.mpr hdef _ u g0
    rw [g3] at k1; cases k1
    rw [g4] at k2; cases k2
    exact (k3 U S).1.mono h le_rfl

end PDP.EndToEnd
