import Verif.EndToEnd.Shares
import Verif.Engine.Exact

/-!
# What a pipeline releases: exact aggregates with calibrated noise (C63)
-/

set_option linter.unusedSectionVars false

namespace PDP.EndToEnd

open PDP PDP.Engine
open PDP.Engine.Mechanism (Additive createThresholding computed)
open PDP.Engine.AddNoise (specOf)
open PDP.Budget (State Op MechType)

variable {R P K : Type} [DecidableEq P] [DecidableEq K]

/-! ### Specification -/

/-- A number that `aggregate` releases: its budget and position, its exact value, how much one privacy id can change it over all
partitions (L1 and L2), and among how many numbers the budget is divided. -/
structure Documented where
  spec : ℕ
  comp : ℕ
  value : ℚ
  l1 : ℝ
  l2 : ℝ
  uses : ℕ := 1

/-- L1 and L2 change of the sums over the rows of a partition, if every row contributes at most `a`. -/
noncomputable def rowChange (p : Params) (a : ℚ) : ℝ × ℝ :=
  match p.maxContributions with
  | some m => (((a * m : ℚ) : ℝ), ((a * m : ℚ) : ℝ))
  | none => ((p.maxPartitions.getD 0) * ((a * (p.maxPerPartition.getD 0 : ℕ) : ℚ) : ℝ),
      Real.sqrt (p.maxPartitions.getD 0) * ((a * (p.maxPerPartition.getD 0 : ℕ) : ℚ) : ℝ))

/-- L1 and L2 change of the sums over the privacy ids of a partition, if every id contributes at most `a`. -/
noncomputable def idChange (p : Params) (a : ℚ) : ℝ × ℝ :=
  match p.maxContributions with
  | some m => (m * a, Real.sqrt m * a)
  | none => ((p.maxPartitions.getD 0) * a, Real.sqrt (p.maxPartitions.getD 0) * a)

/-- Length of the interval of the squares of numbers between `lo` and `hi`. -/
def squaresLength (lo hi : ℚ) : ℚ := if lo < 0 ∧ 0 < hi then max (lo ^ 2) (hi ^ 2) else |hi ^ 2 - lo ^ 2|

/-- The numbers released for partition `k` by a combiner, for the dataset `rows`. -/
noncomputable def documented (p : Params) (rows : List (P × K × ℚ)) (k : K) : Part → List Documented
  | .count i => [{ spec := i, comp := 0, value := (valuesIn k rows).length, l1 := (rowChange p 1).1, l2 := (rowChange p 1).2 }]
  | .privacyIdCount i => [{ spec := i, comp := 0, value := (usersIn k rows).length, l1 := (idChange p 1).1,
                            l2 := (idChange p 1).2 }]
  | .sum i =>
    match p.minSum, p.maxSum with
    | some lo, some hi => [{ spec := i, comp := 0, value := ((usersIn k rows).map fun u => min (max (cell u k rows).sum lo) hi).sum,
                             l1 := (idChange p (max |lo| |hi|)).1, l2 := (idChange p (max |lo| |hi|)).2 }]
    | _, _ =>
      let lo := p.minValue.getD 0
      let hi := p.maxValue.getD 0
      [{ spec := i, comp := 0, value := ((valuesIn k rows).map fun v => min (max v lo) hi).sum,
         l1 := (rowChange p (max |lo| |hi|)).1, l2 := (rowChange p (max |lo| |hi|)).2 }]
  | .mean c s _ =>
    let lo := p.minValue.getD 0
    let hi := p.maxValue.getD 0
    [{ spec := c, comp := 0, value := (valuesIn k rows).length, l1 := (rowChange p 1).1, l2 := (rowChange p 1).2 },
     { spec := s, comp := 0, value := ((valuesIn k rows).map fun v => min (max v lo) hi - (lo + hi) / 2).sum,
       l1 := (rowChange p ((hi - lo) / 2)).1, l2 := (rowChange p ((hi - lo) / 2)).2 }]
  | .variance s _ =>
    let lo := p.minValue.getD 0
    let hi := p.maxValue.getD 0
    [{ spec := s, comp := 0, value := (valuesIn k rows).length, l1 := (rowChange p 1).1, l2 := (rowChange p 1).2, uses := 3 },
     { spec := s, comp := 1, value := ((valuesIn k rows).map fun v => min (max v lo) hi - (lo + hi) / 2).sum,
       l1 := (rowChange p ((hi - lo) / 2)).1, l2 := (rowChange p ((hi - lo) / 2)).2, uses := 3 },
     { spec := s, comp := 2, value := ((valuesIn k rows).map fun v => (min (max v lo) hi - (lo + hi) / 2) ^ 2).sum,
       l1 := (rowChange p (squaresLength lo hi / 2)).1, l2 := (rowChange p (squaresLength lo hi / 2)).2, uses := 3 }]
  | _ => []

/-- The noise of a documented number: of Laplace noise the scale is the L1 change divided by epsilon; the standard deviation of
Gaussian noise is determined by PyDP from epsilon, delta and the L2 change. -/
noncomputable def Documented.noise (sigma : ℝ → ℝ → ℝ → ℝ) (kind : NoiseKind) (ε δ : ℕ → ℝ) (d : Documented) : Additive :=
  match kind with
  | .laplace => .laplace (d.l1 / (ε d.spec / d.uses)) d.l1
  | .gaussian => .gaussian (sigma (ε d.spec / d.uses) (δ d.spec / d.uses) d.l2) d.l2

/-- A documented number with its noise. -/
noncomputable def Documented.noisy (sigma : ℝ → ℝ → ℝ → ℝ) (kind : NoiseKind) (ε δ : ℕ → ℝ) (k : K) (d : Documented) : Noisy K :=
  ⟨k, d.spec, d.comp, d.value, d.noise sigma kind ε δ⟩

/-! ### Sensitivities -/

theorem sensCount_val {p : Params} (hp : p.BoundsValid) :
    ∃ s, sensCount p = .ok s ∧ s.l1 = some (rowChange p 1).1 ∧ s.l2 = some (rowChange p 1).2 := by
  rcases hp with ⟨m, hm, q1, q2, q3⟩ | ⟨l0, linf, hl0, hl, q1, q2, q3⟩
  · have : (0 : ℝ) < m := by exact_mod_cast hm
    simp [sensCount, rowChange, q1, mkSens, positiveOrNone, this]
  · have h0 : (0 : ℝ) < l0 := by exact_mod_cast hl0
    have h1 : (0 : ℝ) < linf := by exact_mod_cast hl
    simp [sensCount, rowChange, q1, q2, q3, mkSens, positiveOrNone, h0, h1, l1Sens, l2Sens]

theorem sensPid_val {p : Params} (hp : p.BoundsValid) :
    ∃ s, sensPrivacyIdCount p = .ok s ∧ s.l1 = some (idChange p 1).1 ∧ s.l2 = some (idChange p 1).2 := by
  rcases hp with ⟨m, hm, q1, q2, q3⟩ | ⟨l0, linf, hl0, hl, q1, q2, q3⟩
  · have : (0 : ℝ) < m := by exact_mod_cast hm
    simp [sensPrivacyIdCount, idChange, q1, mkSens, positiveOrNone, this]
  · have h0 : (0 : ℝ) < l0 := by exact_mod_cast hl0
    simp [sensPrivacyIdCount, idChange, q1, q2, mkSens, positiveOrNone, h0, l1Sens, l2Sens]

theorem max_abs_pos {lo hi : ℚ} (h : ¬(lo = 0 ∧ hi = 0)) : 0 < max |lo| |hi| := by
  rcases lt_or_eq_of_le (le_trans (abs_nonneg lo) (le_max_left |lo| |hi|)) with h' | h'
  · exact h'
  · exfalso; apply h
    have h1 := le_max_left |lo| |hi|
    have h2 := le_max_right |lo| |hi|
    rw [← h'] at h1 h2
    exact ⟨abs_eq_zero.mp (le_antisymm h1 (abs_nonneg _)), abs_eq_zero.mp (le_antisymm h2 (abs_nonneg _))⟩

theorem sensSum_val {p : Params} (hp : p.BoundsValid) {lo hi : ℚ} (h1 : p.minValue = some lo) (h2 : p.maxValue = some hi)
    (h : ¬(lo = 0 ∧ hi = 0)) :
    ∃ s, sensSum p = .ok s ∧ s.l1 = some (rowChange p (max |lo| |hi|)).1 ∧ s.l2 = some (rowChange p (max |lo| |hi|)).2 := by
  have ha := max_abs_pos h
  have hb : p.valueBoundsSet = true := by simp [Params.valueBoundsSet, h1, h2]
  generalize hA : max |lo| |hi| = A at ha
  rcases hp with ⟨m, hm, q1, q2, q3⟩ | ⟨l0, linf, hl0, hl, q1, q2, q3⟩
  · have hm' : m ≠ 0 := by omega
    have : (0 : ℝ) < ((A * m : ℚ) : ℝ) := by
      have : (0 : ℚ) < m := by exact_mod_cast hm
      exact_mod_cast mul_pos ha this
    simp only [sensSum, hb, h1, h2, num, hA, q1, q2, natNum, rowChange, Option.getD_some, hm', bind, Except.bind, if_true,
      ne_eq, not_false_eq_true, Option.map_none]
    simp only [mkSens, positiveOrNone, this, decide_true, Bool.and_self, if_true]
    exact ⟨_, rfl, rfl, rfl⟩
  · have h0 : (0 : ℝ) < l0 := by exact_mod_cast hl0
    have : (0 : ℝ) < ((A * linf : ℚ) : ℝ) := by
      have : (0 : ℚ) < linf := by exact_mod_cast hl
      exact_mod_cast mul_pos ha this
    simp only [sensSum, hb, h1, h2, num, hA, q1, q2, q3, natNum, rowChange, Option.getD_none, Option.getD_some, bind, Except.bind,
      if_true, ne_eq, not_true_eq_false, if_false, Option.map_some]
    simp only [mkSens, positiveOrNone, this, h0, decide_true, Bool.and_self, if_true]
    exact ⟨_, rfl, rfl, rfl⟩

theorem sensSum_partition_val {p : Params} (hp : p.BoundsValid) (hmc : p.maxContributions = none) {lo hi : ℚ}
    (h1 : p.minSum = some lo) (h2 : p.maxSum = some hi) (h3 : p.minValue = none) (h : ¬(lo = 0 ∧ hi = 0)) :
    ∃ s, sensSum p = .ok s ∧ s.l1 = some (idChange p (max |lo| |hi|)).1 ∧ s.l2 = some (idChange p (max |lo| |hi|)).2 := by
  have ha := max_abs_pos h
  have hb : p.valueBoundsSet = false := by simp [Params.valueBoundsSet, h3]
  generalize hA : max |lo| |hi| = A at ha
  rcases hp with ⟨m, hm, q1, q2, q3⟩ | ⟨l0, linf, hl0, hl, q1, q2, q3⟩
  · rw [hmc] at q1; cases q1
  · have h0 : (0 : ℝ) < l0 := by exact_mod_cast hl0
    have : (0 : ℝ) < (A : ℝ) := by exact_mod_cast ha
    simp only [sensSum, hb, h1, h2, num, hA, q1, q2, idChange, Option.getD_some, bind, Except.bind,
      Bool.false_eq_true, if_false, Option.map_some]
    simp only [mkSens, positiveOrNone, this, h0, decide_true, Bool.and_self, if_true]
    exact ⟨_, rfl, rfl, rfl⟩

theorem sensNormalizedSum_val {p : Params} (hp : p.BoundsValid) {lo hi : ℚ} (h1 : p.minValue = some lo)
    (h2 : p.maxValue = some hi) (h : lo < hi) :
    ∃ s, sensNormalizedSum p = .ok s ∧ s.l1 = some (rowChange p ((hi - lo) / 2)).1 ∧
      s.l2 = some (rowChange p ((hi - lo) / 2)).2 := by
  have ha : 0 < (hi - lo) / 2 := by linarith
  generalize hA : (hi - lo) / 2 = A at ha
  rcases hp with ⟨m, hm, q1, q2, q3⟩ | ⟨l0, linf, hl0, hl, q1, q2, q3⟩
  · have hm' : m ≠ 0 := by omega
    have : (0 : ℝ) < ((A * m : ℚ) : ℝ) := by
      have : (0 : ℚ) < m := by exact_mod_cast hm
      exact_mod_cast mul_pos ha this
    simp only [sensNormalizedSum, h1, h2, num, hA, q1, natNum, rowChange, Option.getD_some, hm', bind, Except.bind, if_true,
      ne_eq, not_false_eq_true]
    simp only [mkSens, positiveOrNone, this, decide_true, Bool.and_self, if_true]
    exact ⟨_, rfl, rfl, rfl⟩
  · have h0 : (0 : ℝ) < l0 := by exact_mod_cast hl0
    have : (0 : ℝ) < ((A * linf : ℚ) : ℝ) := by
      have : (0 : ℚ) < linf := by exact_mod_cast hl
      exact_mod_cast mul_pos ha this
    simp only [sensNormalizedSum, h1, h2, num, hA, q1, q2, q3, natNum, rowChange, Option.getD_none, Option.getD_some, bind,
      Except.bind, ne_eq, not_true_eq_false, if_false, Option.map_some]
    simp only [mkSens, positiveOrNone, this, h0, decide_true, Bool.and_self, if_true]
    exact ⟨_, rfl, rfl, rfl⟩

theorem meanLinf_squares (lo hi : ℚ) (n : ℕ) :
    meanLinf (squaresInterval lo hi).1 (squaresInterval lo hi).2 n = squaresLength lo hi / 2 * n := by
  unfold meanLinf middle squaresLength squaresInterval
  split
  · rename_i h
    have : 0 ≤ max (lo ^ 2) (hi ^ 2) := le_trans (sq_nonneg lo) (le_max_left _ _)
    simp only
    rw [show (0 : ℚ) + (max (lo ^ 2) (hi ^ 2) - 0) / 2 - 0 = max (lo ^ 2) (hi ^ 2) / 2 by ring, abs_of_nonneg (by linarith)]
    ring
  · simp only
    rw [show lo ^ 2 + (hi ^ 2 - lo ^ 2) / 2 - lo ^ 2 = (hi ^ 2 - lo ^ 2) / 2 by ring, abs_div, abs_of_nonneg (by norm_num : (0 : ℚ) ≤ 2)]
    ring

/-! ### Noisy numbers -/

theorem evalView_eq (sigma : ℝ → ℝ → ℝ → ℝ) (kind : NoiseKind) (ε δ : ℕ → ℝ) (s : Specs) (k : K) (v : View) (a : v.comb.Acc)
    (ds : List Documented)
    (h : List.Forall₂ (fun n d => n.spec = d.spec ∧ n.comp = d.comp ∧ n.read a = d.value ∧
      n.mech (s n.spec) = .ok (d.noise sigma kind ε δ)) v.numbers ds) :
    evalView s k v a = .ok (ds.map (Documented.noisy sigma kind ε δ k)) := by
  unfold evalView
  generalize v.numbers = ns at h
  induction h with
  | nil => rfl
  | @cons n d ns ds hab _ ih =>
    obtain ⟨h1, h2, h3, h4⟩ := hab
    rw [List.mapM_cons, ih, h4, h1, h2, h3]
    rfl

theorem evalParts_of (sigma : ℝ → ℝ → ℝ → ℝ) (s : Specs) (p : Params) (k : K) (parts : List Part)
    (a : (Combiner.compound (combinersOf sigma p parts)).Acc) (F : Part → List (Noisy K))
    (h : ∀ (i : Fin (combinersOf sigma p parts).length) (part : Part) (v : View), view sigma p part = v → part ∈ parts →
      ∀ hi : (combinersOf sigma p parts)[i] = v.comb, evalView s k v (Combiner.readAs v.comb i hi a) = .ok (F part)) :
    evalParts sigma s p k parts a.2 = .ok (parts.flatMap F) := by
  induction parts with
  | nil => rfl
  | cons part parts ih =>
    have h1 := h ⟨0, by simp [combinersOf]⟩ part _ rfl (by simp) rfl
    have h2 := ih (a.1, a.2.2) (fun i part' v hv hp hi =>
      h ⟨i.1 + 1, by have := i.2; simp [combinersOf] at this ⊢; exact this⟩ part' v hv (by simp [hp]) hi)
    have h1' : evalView s k (view sigma p part) a.2.1 = .ok (F part) := h1
    have h2' : evalParts sigma s p k parts a.2.2 = .ok (parts.flatMap F) := h2
    unfold evalParts
    rw [h1', h2', List.flatMap_cons]
    rfl

theorem additive_noise (sigma : ℝ → ℝ → ℝ → ℝ) {kind : NoiseKind} {ε δ : ℕ → ℝ} {s : Specs} {i : ℕ}
    (hs : SpecOk s ε δ i kind.mechanism) {sens : Except Engine.Err Sens} {c : ℕ} {x : ℚ} {l : ℝ × ℝ}
    (h : ∃ z, sens = .ok z ∧ z.l1 = some l.1 ∧ z.l2 = some l.2) :
    additive sigma sens (s i)
      = .ok (Documented.noise sigma kind ε δ { spec := i, comp := c, value := x, l1 := l.1, l2 := l.2 }) := by
  obtain ⟨z, h1, h2, h3⟩ := h
  rw [hs.eq]
  cases kind with
  | laplace => refine (additive_laplace sigma h1 h2).trans ?_; simp [Documented.noise]
  | gaussian => refine (additive_gaussian sigma h1 h3).trans ?_; simp [Documented.noise]

theorem third_noise (sigma : ℝ → ℝ → ℝ → ℝ) {kind : NoiseKind} {ε δ : ℕ → ℝ} {s : Specs} {i : ℕ}
    (hs : SpecOk s ε δ i kind.mechanism) {c : ℕ} {x : ℚ} {l0 linf : ℝ} {l : ℝ × ℝ} (h1 : l.1 = l0 * linf)
    (h2 : l.2 = Real.sqrt l0 * linf) :
    thirdOf sigma kind l0 linf (s i)
      = .ok (Documented.noise sigma kind ε δ { spec := i, comp := c, value := x, l1 := l.1, l2 := l.2, uses := 3 }) := by
  rw [hs.eq]
  have e : ∀ z : ℝ, 1 / 3 * z = z / 3 := fun z => by ring
  cases kind with
  | laplace => refine (thirdOf_laplace sigma l0 linf _ _).trans ?_; simp only [Documented.noise, h1, l1Sens, e, Nat.cast_ofNat]
  | gaussian => refine (thirdOf_gaussian sigma l0 linf _ _).trans ?_; simp only [Documented.noise, h2, l2Sens, e, Nat.cast_ofNat]

/-! ### The numbers of a partition -/

section Parts

variable {sigma : ℝ → ℝ → ℝ → ℝ} {s : Specs} {ε δ : ℕ → ℝ} {p : Params} {pub : Option (List K)}
  (B : Backend) (hB : B.Lawful) (hp : p.BoundsValid) (cs : List (Combiner ℚ))
  {comb : List (K × (Combiner.compound cs).Acc) → List (K × (Combiner.compound cs).Acc)}
  (hcomb : LawfulCombine (Combiner.compound cs).merge comb) (col : List (P × K × ℚ))
  (hf : p.publicFiltered = true → ∀ ps, pub = some ps → ∀ r ∈ col, r.2.1 ∈ ps)
  (hw : p.boundsEnforced = false → WithinPartitionBounds p (relevant pub col) ∧ WithinRowBounds p (relevant pub col))
  (h0 : pub ≠ none → ∀ lo hi, p.minSum = some lo → p.maxSum = some hi → lo ≤ 0 ∧ 0 ≤ hi)

include hB hp hcomb hf hw h0 in
theorem part_numbers {out} (hout : partitionAccumulators B cs comb (fun _ _ => true) p pub col = .ok out)
    (e) (he : e ∈ out) (part : Part) (hok : PartOkAny p part)
    (hsp : ∀ i ∈ part.specs, SpecOk s ε δ i (part.mechanism p.noiseKind))
    (i : Fin cs.length) (v : View) (hv : view sigma p part = v) (hi : cs[i] = v.comb) :
    evalView s e.1 v (Combiner.readAs v.comb i hi e.2)
      = .ok ((documented p (relevant pub col) e.1 part).map (Documented.noisy sigma p.noiseKind ε δ e.1)) := by
  apply evalView_eq
  rcases hok with hok | ⟨j, rfl⟩ | ⟨j, ps, rfl⟩
  rotate_left
  · simp only [view] at hv; subst hv; exact .nil
  · simp only [view] at hv; subst hv; exact .nil
  cases part with
  | count j =>
    simp only [view] at hv; subst hv
    obtain ⟨out', h1, h2⟩ := C61_count_is_exact B hB p hp (fun _ _ => true) pub cs comb hcomb col hf hw i hi
    rw [hout] at h1; cases h1
    refine .cons ⟨rfl, rfl, congrArg (Nat.cast (R := ℚ)) (h2 e he), ?_⟩ .nil
    exact additive_noise sigma (hsp j (by simp [Part.specs])) (sensCount_val hp)
  | privacyIdCount j =>
    simp only [view] at hv; subst hv
    have hb : p.boundsEnforced = false := hok
    obtain ⟨out', h1, h2⟩ := C61_privacy_id_count_is_exact B hB p hp (fun _ _ => true) pub cs comb hcomb col hf hb (hw hb).1
      (fun _ => (hw hb).2) i hi
    rw [hout] at h1; cases h1
    refine .cons ⟨rfl, rfl, congrArg (Nat.cast (R := ℚ)) (h2 e he), ?_⟩ .nil
    exact additive_noise sigma (hsp j (by simp [Part.specs])) (sensPid_val hp)
  | sum j =>
    rcases hok with ⟨lo, hi', q1, q2, q3, q4, q5⟩ | ⟨lo, hi', q1, q2, q3, q4, q5, q6, q7⟩
    · obtain rfl : p.minValue.getD 0 = lo := by rw [q1]; rfl
      obtain rfl : p.maxValue.getD 0 = hi' := by rw [q2]; rfl
      have hd : ∃ x : Documented, documented p (relevant pub col) e.1 (.sum j) = [x] ∧ x = ⟨j, 0,
          ((valuesIn e.1 (relevant pub col)).map fun v => min (max v (p.minValue.getD 0)) (p.maxValue.getD 0)).sum,
          (rowChange p (max |p.minValue.getD 0| |p.maxValue.getD 0|)).1,
          (rowChange p (max |p.minValue.getD 0| |p.maxValue.getD 0|)).2, 1⟩ := by
        refine ⟨_, ?_, rfl⟩
        unfold documented
        rcases ha : p.minSum with _ | a <;> rcases hb : p.maxSum with _ | b <;> first | rfl | skip
        simp [Params.sumBoundsSet, ha, hb] at q5
      simp only [view, q5, Bool.false_eq_true, if_false] at hv
      subst hv
      obtain ⟨out', h1, h2⟩ := C61_sum_is_exact B hB p hp (fun _ _ => true) pub cs comb hcomb col hf hw _ _ i hi
      rw [hout] at h1; cases h1
      obtain ⟨x, hd, rfl⟩ := hd
      rw [hd]
      refine .cons ⟨rfl, rfl, h2 e he, ?_⟩ .nil
      exact additive_noise sigma (hsp j (by simp [Part.specs])) (sensSum_val hp q1 q2 q4)
    · have hd : documented p (relevant pub col) e.1 (.sum j) = [⟨j, 0, ((usersIn e.1 (relevant pub col)).map fun u =>
          min (max (cell u e.1 (relevant pub col)).sum lo) hi').sum, (idChange p (max |lo| |hi'|)).1,
          (idChange p (max |lo| |hi'|)).2, 1⟩] := by
        simp only [documented, q1, q2]
      rw [hd]
      obtain rfl : p.minSum.getD 0 = lo := by rw [q1]; rfl
      obtain rfl : p.maxSum.getD 0 = hi' := by rw [q2]; rfl
      have hb : p.sumBoundsSet = true := by unfold Params.sumBoundsSet; rw [q1, q2]; rfl
      simp only [view, hb, if_true] at hv
      subst hv
      obtain ⟨out', h1, h2⟩ := C61_sum_per_partition_is_exact B hB p hp (fun _ _ => true) pub cs comb hcomb col hf q7 (hw q7).1
        (fun _ => (hw q7).2) _ _ (fun hpub => h0 hpub _ _ q1 q2) i hi
      rw [hout] at h1; cases h1
      refine .cons ⟨rfl, rfl, h2 e he, ?_⟩ .nil
      exact additive_noise sigma (hsp j (by simp [Part.specs])) (sensSum_partition_val hp q6 q1 q2 q5 q4)
  | mean c j ns =>
    obtain ⟨lo, hi', q1, q2, q3⟩ := hok
    obtain rfl : p.minValue.getD 0 = lo := by rw [q1]; rfl
    obtain rfl : p.maxValue.getD 0 = hi' := by rw [q2]; rfl
    simp only [view] at hv
    subst hv
    obtain ⟨out', h1, h2⟩ := C61_mean_is_exact B hB p hp (fun _ _ => true) pub cs comb hcomb col hf hw _ _ i hi
    rw [hout] at h1; cases h1
    simp only [documented]
    refine .cons ⟨rfl, rfl, congrArg (fun a : ℕ × ℚ => (a.1 : ℚ)) (h2 e he), ?_⟩
      (.cons ⟨rfl, rfl, congrArg (fun a : ℕ × ℚ => a.2) (h2 e he), ?_⟩ .nil)
    · exact additive_noise sigma (hsp c (by simp [Part.specs])) (sensCount_val hp)
    · exact additive_noise sigma (hsp j (by simp [Part.specs])) (sensNormalizedSum_val hp q1 q2 q3)
  | variance j ns =>
    obtain ⟨⟨lo, hi', q1, q2, q3, -⟩, q4⟩ := hok
    obtain rfl : p.minValue.getD 0 = lo := by rw [q1]; rfl
    obtain rfl : p.maxValue.getD 0 = hi' := by rw [q2]; rfl
    have hne : ¬ (squaresInterval (p.minValue.getD 0) (p.maxValue.getD 0)).1
        = (squaresInterval (p.minValue.getD 0) (p.maxValue.getD 0)).2 := by
      rcases squares_ne q3 with h | h
      · exact h.ne
      · exact h.ne'
    simp only [view, q3.ne, hne, if_false, List.singleton_append] at hv
    subst hv
    obtain ⟨out', h1, h2⟩ := C61_variance_is_exact B hB p hp (fun _ _ => true) pub cs comb hcomb col hf hw _ _ i hi
    rw [hout] at h1; cases h1
    simp only [documented]
    have hj := hsp j (by simp [Part.specs])
    refine .cons ⟨rfl, rfl, congrArg (fun a : ℕ × ℚ × ℚ => (a.1 : ℚ)) (h2 e he), ?_⟩
      (.cons ⟨rfl, rfl, congrArg (fun a : ℕ × ℚ × ℚ => a.2.1) (h2 e he), ?_⟩
      (.cons ⟨rfl, rfl, congrArg (fun a : ℕ × ℚ × ℚ => a.2.2) (h2 e he), ?_⟩ .nil))
    · exact third_noise sigma hj (by simp [rowChange, q4]) (by simp [rowChange, q4])
    · generalize p.minValue.getD 0 = lo, p.maxValue.getD 0 = hi' at q3
      have hm : meanLinf lo hi' (p.maxPerPartition.getD 0) = (hi' - lo) / 2 * (p.maxPerPartition.getD 0 : ℕ) := by
        unfold meanLinf middle
        rw [show lo + (hi' - lo) / 2 - lo = (hi' - lo) / 2 by ring, abs_of_pos (by linarith)]; ring
      exact third_noise sigma hj (by simp only [rowChange, q4, hm]) (by simp only [rowChange, q4, hm])
    · exact third_noise sigma hj (by simp only [rowChange, q4, meanLinf_squares]) (by simp only [rowChange, q4, meanLinf_squares])
  | thresholding j => exact hok.elim
  | vectorSum j => exact hok.elim
  | quantile j l => exact hok.elim

end Parts

end PDP.EndToEnd
