import Verif.Analysis.Config
import Verif.Backend.Sampling
import Mathlib.Data.Nat.Sqrt
import Mathlib.Data.List.Sort
import Mathlib.Data.List.GetD
import Mathlib.Tactic.Set
import Mathlib.Tactic.Linarith
import Mathlib.Tactic.FieldSimp
import Mathlib.Tactic.Positivity

/-!
# Parameter tuning: candidates and the choice of the best one (`analysis/parameter_tuning.py`)
-/

set_option linter.unusedVariables false

namespace PDP.Analysis.Tuning

open PDP.Analysis.Config (SumVal Multi Len given)
open PDP.Histogram (pyRound)

/-! ### Model -/

inductive Err where
  | assertionError
  | indexError
  | valueError
deriving DecidableEq

/-- The loop of `_find_candidates_constant_relative_step` (`parameter_tuning.py:293-299`): `k` iterations are left, the next
one is number `i`.  `acc i` is `math.ceil(accumulated)` in iteration `i`: any natural number, so that nothing is assumed on
the floating point power and products. -/
def stepLoop (maxValue : ℕ) (acc : ℕ → ℕ) : ℕ → ℕ → List ℕ → ℕ → List ℕ
  | 0, _, cands, _ => cands
  | k + 1, i, cands, prev =>
    if prev ≥ maxValue then cands
    else stepLoop maxValue acc k (i + 1) (cands ++ [max (prev + 1) (acc i)]) (max (prev + 1) (acc i))

/-- `_find_candidates_constant_relative_step` (`parameter_tuning.py:275-303`). -/
def relativeStep (maxValue maxCandidates : ℕ) (acc : ℕ → ℕ) : Except Err (List ℕ) :=
  if maxValue < 1 then .error .assertionError
  else
    let m := min maxCandidates maxValue
    if m = 0 then .error .assertionError
    else if m = 1 then .ok [1]
    else .ok ((stepLoop maxValue acc (m - 1) 1 [1] 1).dropLast ++ [maxValue])

/-- `np.round(np.linspace(first, last, num=m)).astype(int)`, in exact arithmetic. -/
def linspaceIds (first last m : ℕ) : List ℕ :=
  if m = 1 then [first]
  else (List.range m).map fun i : ℕ => (pyRound ((first : ℚ) + i * (((last : ℚ) - first) / ((m : ℚ) - 1)))).toNat

/-- `_find_candidates_bins_max_values_subsample` (`parameter_tuning.py:306-319`) on the maxima of the bins. -/
def subsample (maxCandidates : ℕ) (bins : List ℚ) : Except Err (List ℚ) :=
  match bins with
  | [] => .error .indexError
  | b :: _ =>
    let first := if b > 0 then 0 else 1
    let m := min maxCandidates (bins.length - first)
    .ok ((linspaceIds first (bins.length - 1) m).map fun i => bins.getD i 0)

/-- `_pad_list` (`parameter_tuning.py:224-226`). -/
def pad {A : Type} (a : List A) (size : ℕ) : Except Err (List A) :=
  if a.length < size then
    match a with
    | [] => .error .indexError
    | x :: _ => .ok (a ++ List.replicate (size - a.length) x)
  else .ok a

/-- `_duplicate_each_element` (`parameter_tuning.py:229-232`). -/
def dupEach {A : Type} (a : List A) (n : ℕ) : List A := a.flatMap fun x => List.replicate n x

/-- `_duplicate_list` (`parameter_tuning.py:235-238`). -/
def dupList {A : Type} (a : List A) (n : ℕ) : List A := (List.replicate n a).flatten

/-- `list(zip(*columns))`; the columns have equal lengths. -/
def rowsOf (columns : List (List ℚ)) : List (List ℚ) :=
  (List.range ((columns.headD []).length)).map fun i => columns.map fun c => c.getD i 0

/-- The bounds of the sums of one or of several columns (`parameter_tuning.py:196-205`). -/
def sumLists (columns : List (List ℚ)) : List SumVal × List SumVal :=
  match columns with
  | [c] => (c.map fun _ => .num 0, c.map .num)
  | _ => ((rowsOf columns).map fun _ => .seq (List.replicate columns.length 0), (rowsOf columns).map .seq)

/-- What is tuned.  `count` is "tune `max_contributions_per_partition` and COUNT is computed", `sum` likewise. -/
structure Request where
  l0 : Bool
  count : Bool
  sum : Bool
  l0Param : Option ℕ
  maxCandidates : ℕ

/-- The histograms: largest numbers of partitions and of rows, and for each column the maxima of the bins of the sums. -/
structure Hists where
  l0Max : ℕ
  linfMax : ℕ
  sums : List (List ℚ)

/-- `l0_bounds` (`parameter_tuning.py:146-157`). -/
def l0Bounds (r : Request) (h : Hists) (acc : ℕ → ℕ) : Except Err (List ℕ) :=
  if r.l0 then relativeStep h.l0Max (if r.count || r.sum then Nat.sqrt r.maxCandidates else r.maxCandidates) acc
  else .ok (match r.l0Param with | some l0 => if l0 = 0 then [1] else [l0] | none => [1])

/-- `max` of the lengths of a non-empty list of lists. -/
def maxLen {A : Type} (l : List (List A)) : ℕ := (l.map List.length).foldl max 0

/-- The lists before the cross product (`parameter_tuning.py:159-205`): bounds of the counts and of the sums, padded to
`max_linf_len`, and the final value of `max_linf_len`. -/
def linfLists (r : Request) (h : Hists) (maxLinf : ℕ) (acc : ℕ → ℕ) :
    Except Err (Option (List ℕ) × Option (List (List ℚ)) × ℕ) := do
  let counts ← if r.count then (relativeStep h.linfMax maxLinf acc).map some else .ok none
  let sums ← if r.sum then
      (if h.sums = [] then .error .valueError else (h.sums.mapM (subsample maxLinf)).map some) else .ok none
  let len0 := match counts with | some c => c.length | none => 1
  let len := match sums with | some s => max len0 (maxLen s) | none => len0
  let counts ← match counts with | some c => (pad c len).map some | none => .ok none
  let sums ← match sums with | some s => (s.mapM fun a => pad a len).map some | none => .ok none
  let len' := match sums with | some s => max len s.length | none => len
  return (counts, sums, len')

/-- `_find_candidate_parameters` (`parameter_tuning.py:120-219`) with the validation of the resulting
`MultiParameterConfiguration`. -/
def findCandidates (r : Request) (h : Hists) (acc1 acc2 : ℕ → ℕ) : Except Err (Multi Unit Unit) := do
  let l0s ← l0Bounds r h acc1
  let (counts, sums, len) ← linfLists r h (r.maxCandidates / l0s.length) acc2
  let c : Multi Unit Unit :=
    { l0 := some (dupEach l0s len)
      linf := counts.map fun a => dupList a l0s.length
      minSum := sums.map fun a => dupList (sumLists a).1 l0s.length
      maxSum := sums.map fun a => dupList (sumLists a).2 l0s.length }
  match c.check with
  | .ok _ => return c
  | .error _ => .error .valueError

/-! ### Lemmas -/

/-- Invariant of the loop: strictly increasing from 1, everything but the last element below the maximum. -/
structure LoopInv (maxValue n : ℕ) (cands : List ℕ) (prev : ℕ) : Prop where
  sorted : cands.Pairwise (· < ·)
  head : cands.head? = some 1
  last : cands.getLast? = some prev
  init : ∀ x ∈ cands.dropLast, x < maxValue
  len : cands.length ≤ n

theorem pairwise_lt_last {l : List ℕ} (h : l.Pairwise (· < ·)) {p : ℕ} (hl : l.getLast? = some p) : ∀ x ∈ l, x ≤ p := by
  intro x hx
  obtain ⟨l', rfl⟩ : ∃ l', l = l' ++ [p] := by
    rw [List.getLast?_eq_some_iff] at hl; exact hl
  rw [List.pairwise_append] at h
  rcases List.mem_append.1 hx with hx | hx
  · exact (h.2.2 x hx p (by simp)).le
  · simp at hx; omega

theorem stepLoop_inv (maxValue : ℕ) (acc : ℕ → ℕ) : ∀ (k i : ℕ) (cands : List ℕ) (prev n : ℕ),
    LoopInv maxValue n cands prev → ∃ prev', LoopInv maxValue (n + k) (stepLoop maxValue acc k i cands prev) prev' ∧
      ((k ≠ 0 ∧ prev < maxValue) → cands.length < (stepLoop maxValue acc k i cands prev).length) ∧
      cands.length ≤ (stepLoop maxValue acc k i cands prev).length
  | 0, i, cands, prev, n, h => ⟨prev, h, by simp, le_refl _⟩
  | k + 1, i, cands, prev, n, h => by
    unfold stepLoop
    split_ifs with hp
    · exact ⟨prev, ⟨h.sorted, h.head, h.last, h.init, h.len.trans (by omega)⟩, by omega, le_refl _⟩
    · set next := max (prev + 1) (acc i) with hnext
      have hlt : prev < next := by omega
      have hinv : LoopInv maxValue (n + 1) (cands ++ [next]) next := by
        refine ⟨?_, ?_, by simp, ?_, by simpa using h.len⟩
        · rw [List.pairwise_append]
          refine ⟨h.sorted, List.pairwise_singleton _ _, ?_⟩
          intro x hx y hy
          simp at hy; subst hy
          have := pairwise_lt_last h.sorted h.last x hx
          omega
        · rcases cands with _ | ⟨c, cs⟩
          · simpa using h.head
          · simpa using h.head
        · intro x hx
          rw [List.dropLast_concat] at hx
          have := pairwise_lt_last h.sorted h.last x hx
          omega
      obtain ⟨p', h1, h2, h3⟩ := stepLoop_inv maxValue acc k (i + 1) _ next (n + 1) hinv
      refine ⟨p', ⟨h1.sorted, h1.head, h1.last, h1.init, h1.len.trans (by omega)⟩, fun _ => ?_, ?_⟩
      · simp at h3; omega
      · simp at h3; omega

/-! ### C46: candidates with constant relative step -/

/-- **C46** (constant relative step). For every maximum of the histogram, every number of candidates asked for, and
whatever the floating point computation of the powers gives: the candidates are strictly increasing, between 1 and the
maximum, the first is 1, there are at most as many as asked for; and the last is the maximum, unless only one candidate was
asked for, when the only candidate is 1. -/
theorem C46_relative_step (maxValue maxCandidates : ℕ) (acc : ℕ → ℕ) (h1 : 1 ≤ maxValue) (h2 : 1 ≤ maxCandidates) :
    ∃ l, relativeStep maxValue maxCandidates acc = .ok l ∧ l.Pairwise (· < ·) ∧ (∀ x ∈ l, 1 ≤ x ∧ x ≤ maxValue) ∧
      l.head? = some 1 ∧ l.length ≤ maxCandidates ∧ l.length ≤ maxValue ∧
      (2 ≤ maxCandidates → l.getLast? = some maxValue) ∧ (maxCandidates = 1 → l = [1]) := by
  unfold relativeStep
  dsimp only
  rw [if_neg (by omega), if_neg (by omega)]
  split_ifs with hm
  · refine ⟨[1], rfl, List.pairwise_singleton _ _, by simp; omega, rfl, by simpa using h2, by simpa using h1, ?_,
      fun _ => rfl⟩
    intro h
    have : maxValue = 1 := by omega
    subst this; rfl
  · set m := min maxCandidates maxValue with hmdef
    have hinv0 : LoopInv maxValue 1 [1] 1 := ⟨List.pairwise_singleton _ _, rfl, rfl, by simp, by simp⟩
    obtain ⟨p', hinv, hgrow, _⟩ := stepLoop_inv maxValue acc (m - 1) 1 [1] 1 1 hinv0
    have hlong := hgrow ⟨by omega, by omega⟩
    set c := stepLoop maxValue acc (m - 1) 1 [1] 1
    have hlen : (c.dropLast ++ [maxValue]).length = c.length := by
      simp at hlong ⊢; omega
    have hsorted : (c.dropLast ++ [maxValue]).Pairwise (· < ·) := by
      rw [List.pairwise_append]
      refine ⟨hinv.sorted.sublist (List.dropLast_sublist c), List.pairwise_singleton _ _, ?_⟩
      intro x hx y hy
      simp at hy; subst hy
      exact hinv.init x hx
    have hhead : (c.dropLast ++ [maxValue]).head? = some 1 := by
      have hh := hinv.head
      rcases hc : c with _ | ⟨a, _ | ⟨b, cs⟩⟩
      · rw [hc] at hlong; simp at hlong
      · rw [hc] at hlong; simp at hlong
      · rw [hc] at hh; simpa using hh
    refine ⟨_, rfl, hsorted, ?_, hhead, ?_, ?_, by simp, ?_⟩
    · intro x hx
      constructor
      · obtain ⟨t, ht⟩ : ∃ t, c.dropLast ++ [maxValue] = 1 :: t := by
          rcases hl : c.dropLast ++ [maxValue] with _ | ⟨y, t⟩
          · rw [hl] at hhead; simp at hhead
          · rw [hl] at hhead; simp at hhead; exact ⟨t, by rw [hhead]⟩
        rw [ht] at hx hsorted
        rcases List.mem_cons.1 hx with rfl | hx
        · exact le_refl _
        · exact ((List.pairwise_cons.1 hsorted).1 x hx).le
      · rcases List.mem_append.1 hx with hx | hx
        · exact (hinv.init x hx).le
        · simp at hx; omega
    · rw [hlen]; have := hinv.len; omega
    · rw [hlen]; have := hinv.len; omega
    · intro h; omega

/-- Not evaluated on an empty histogram or for no candidates. -/
theorem C46_relative_step_assert (maxValue maxCandidates : ℕ) (acc : ℕ → ℕ) :
    relativeStep maxValue maxCandidates acc = .error .assertionError ↔ maxValue = 0 ∨ maxCandidates = 0 := by
  constructor
  · intro h
    by_contra hc
    obtain ⟨l, hl, _⟩ := C46_relative_step maxValue maxCandidates acc (by omega) (by omega)
    rw [hl] at h; cases h
  · intro h
    unfold relativeStep
    dsimp only
    split_ifs with h1 h2 h3
    · rfl
    · rfl
    · omega
    · omega

example : relativeStep 100 5 (fun i => [0, 4, 10, 32, 100].getD i 0) = .ok [1, 4, 10, 32, 100] := by decide +kernel
/-- A power which comes out too small, and then too big. -/
example : relativeStep 6 4 (fun i => [0, 0, 90, 91].getD i 0) = .ok [1, 2, 6] := by decide +kernel

/-! ### C46: candidates from bins -/

theorem pyRound_strict {x s : ℚ} (hs : 1 < s) : pyRound x < pyRound (x + s) := by
  have h1 := abs_le.mp (PDP.Backend.pyRound_dist x)
  have h2 := abs_le.mp (PDP.Backend.pyRound_dist (x + s))
  have : (pyRound x : ℚ) < pyRound (x + s) := by linarith [h1.1, h1.2, h2.1, h2.2]
  exact_mod_cast this

/-- The `i`-th index before rounding. -/
def point (first last m i : ℕ) : ℚ := (first : ℚ) + i * (((last : ℚ) - first) / ((m : ℚ) - 1))

theorem point_step (first last m i : ℕ) :
    point first last m (i + 1) = point first last m i + ((last : ℚ) - first) / ((m : ℚ) - 1) := by
  unfold point; push_cast; ring

theorem step_ge_one {first last m : ℕ} (h2 : 2 ≤ m) (hm : m ≤ last + 1 - first) :
    1 ≤ ((last : ℚ) - first) / ((m : ℚ) - 1) := by
  have h2' : (2 : ℚ) ≤ m := by exact_mod_cast h2
  rw [le_div_iff₀ (by linarith)]
  have : m + first ≤ last + 1 := by omega
  have : (m : ℚ) + first ≤ last + 1 := by exact_mod_cast this
  linarith

theorem round_point_strict {first last m : ℕ} (h2 : 2 ≤ m) (hm : m ≤ last + 1 - first) (i : ℕ) :
    pyRound (point first last m i) < pyRound (point first last m (i + 1)) := by
  rcases (step_ge_one h2 hm).lt_or_eq with h | h
  · rw [point_step]; exact pyRound_strict h
  · have : ∀ j, point first last m j = (((first + j : ℕ) : ℤ) : ℚ) := by
      intro j; unfold point; rw [← h]; push_cast; ring
    rw [this, this, PDP.Backend.pyRound_int, PDP.Backend.pyRound_int]
    push_cast; omega

theorem round_point_zero (first last m : ℕ) : pyRound (point first last m 0) = first := by
  have : point first last m 0 = ((first : ℤ) : ℚ) := by unfold point; push_cast; ring
  rw [this, PDP.Backend.pyRound_int]

theorem round_point_last {first last m : ℕ} (h2 : 2 ≤ m) : pyRound (point first last m (m - 1)) = last := by
  have h2' : (2 : ℚ) ≤ m := by exact_mod_cast h2
  have : point first last m (m - 1) = ((last : ℤ) : ℚ) := by
    unfold point
    rw [Nat.cast_sub (by omega)]
    have : (m : ℚ) - 1 ≠ 0 := by linarith
    push_cast
    field_simp
    ring
  rw [this, PDP.Backend.pyRound_int]

theorem round_point_mono {first last m : ℕ} (h2 : 2 ≤ m) (hm : m ≤ last + 1 - first) :
    StrictMono fun i => pyRound (point first last m i) := strictMono_nat_of_lt_succ (round_point_strict h2 hm)

/-- Properties of the rounded equally spaced indices, when there are no more of them than positions. -/
theorem linspaceIds_spec {first last m : ℕ} (h1 : 1 ≤ m) (hm : m ≤ last + 1 - first) :
    (linspaceIds first last m).length = m ∧ (linspaceIds first last m).Pairwise (· < ·) ∧
    (∀ i ∈ linspaceIds first last m, first ≤ i ∧ i ≤ last) ∧ (linspaceIds first last m).head? = some first ∧
    (2 ≤ m → (linspaceIds first last m).getLast? = some last) := by
  unfold linspaceIds
  split_ifs with hm1
  · subst hm1
    refine ⟨rfl, List.pairwise_singleton _ _, ?_, rfl, by omega⟩
    simp; omega
  · have h2 : 2 ≤ m := by omega
    have hmono := round_point_mono h2 hm
    have hz := round_point_zero first last m
    have hl := round_point_last (first := first) (last := last) h2
    have hge : ∀ i, (first : ℤ) ≤ pyRound (point first last m i) := by
      intro i; rw [← hz]; exact hmono.monotone (Nat.zero_le i)
    have hle : ∀ i, i < m → pyRound (point first last m i) ≤ (last : ℤ) := by
      intro i hi; rw [← hl]; exact hmono.monotone (by omega)
    refine ⟨by simp, ?_, ?_, ?_, ?_⟩
    · rw [List.pairwise_map]
      refine List.Pairwise.imp ?_ List.pairwise_lt_range
      intro a b hab
      have := hmono hab
      have := hge a
      dsimp only [point] at *
      omega
    · intro x hx
      obtain ⟨i, hi, rfl⟩ := List.mem_map.1 hx
      have := hge i
      have := hle i (List.mem_range.1 hi)
      dsimp only [point] at *
      omega
    · obtain ⟨k, rfl⟩ : ∃ k, m = k + 1 := ⟨m - 1, by omega⟩
      rw [List.range_succ_eq_map, List.map_cons, List.head?_cons]
      have := hz
      dsimp only [point] at this
      rw [this]; rfl
    · intro _
      obtain ⟨k, rfl⟩ : ∃ k, m = k + 1 := ⟨m - 1, by omega⟩
      rw [List.range_succ, List.map_append, List.map_singleton, List.getLast?_concat]
      have := hl
      simp only [Nat.add_sub_cancel] at this
      dsimp only [point] at this
      rw [this]; rfl

/-- **C46** (candidates for the bounds of sums). For every histogram whose bins have increasing maxima, and every number of
candidates asked for (at least one): the candidates are maxima of bins, strictly increasing, no more than asked for and, if
at least two are given, the last one is the maximum of the last bin.  If the second bin has a positive maximum (or there is
only one and it is positive), all candidates are positive and there is at least one. -/
theorem C46_subsample (maxCandidates : ℕ) (bins : List ℚ) (h1 : 1 ≤ maxCandidates) (hne : bins ≠ [])
    (hs : bins.Pairwise (· < ·)) :
    ∃ l, subsample maxCandidates bins = .ok l ∧ (∀ x ∈ l, x ∈ bins) ∧ l.Pairwise (· < ·) ∧ l.length ≤ maxCandidates ∧
      (2 ≤ l.length → l.getLast? = bins.getLast?) ∧
      ((∃ b, bins.head? = some b ∧ 0 < b) ∨ (∃ b, bins[1]? = some b ∧ 0 < b) → l ≠ [] ∧ ∀ x ∈ l, 0 < x) := by
  rcases bins with _ | ⟨b, bs⟩
  · exact absurd rfl hne
  set bins := b :: bs with hbins
  have hlen : bins.length = bs.length + 1 := by simp [hbins]
  set first := (if b > 0 then 0 else 1) with hfirst
  set m := min maxCandidates (bins.length - first) with hm
  have hsub : subsample maxCandidates bins =
      .ok ((linspaceIds first (bins.length - 1) m).map fun i => bins.getD i 0) := rfl
  refine ⟨_, hsub, ?_⟩
  have hf1 : first ≤ 1 := by rw [hfirst]; split_ifs <;> omega
  by_cases hm0 : m = 0
  · have hnil : linspaceIds first (bins.length - 1) m = [] := by rw [hm0]; rfl
    rw [hnil]
    refine ⟨by simp, by simp, by simp, by simp, ?_⟩
    rintro (⟨x, hx, hx0⟩ | ⟨x, hx, hx0⟩)
    · exfalso
      simp [hbins] at hx; subst hx
      rw [if_pos hx0] at hfirst; omega
    · exfalso
      have : 1 < bins.length := by
        by_contra hc
        rw [List.getElem?_eq_none (by omega)] at hx; cases hx
      omega
  · obtain ⟨g1, g2, g3, g4, g5⟩ := linspaceIds_spec (first := first) (last := bins.length - 1) (m := m)
      (by omega) (by omega)
    set ids := linspaceIds first (bins.length - 1) m
    have hget : ∀ i ∈ ids, ∃ hi : i < bins.length, bins.getD i 0 = bins[i] := by
      intro i hi
      have := g3 i hi
      exact ⟨by omega, by rw [List.getD_eq_getElem _ _ (by omega)]⟩
    refine ⟨?_, ?_, ?_, ?_, ?_⟩
    · intro x hx
      obtain ⟨i, hi, rfl⟩ := List.mem_map.1 hx
      obtain ⟨hi', he⟩ := hget i hi
      rw [he]; exact List.getElem_mem _
    · rw [List.pairwise_map]
      refine List.Pairwise.imp_of_mem ?_ g2
      intro i j hi hj hij
      obtain ⟨hi', he⟩ := hget i hi
      obtain ⟨hj', he'⟩ := hget j hj
      rw [he, he']
      exact List.pairwise_iff_getElem.1 hs i j hi' hj' hij
    · rw [List.length_map, g1]; omega
    · intro h2
      rw [List.length_map, g1] at h2
      rw [List.getLast?_map, g5 h2, List.getLast?_eq_getElem?, Option.map_some, List.getD_eq_getElem _ _ (by omega),
        List.getElem?_eq_getElem (by omega)]
    · intro hpos
      refine ⟨fun h => ?_, ?_⟩
      · have := congrArg List.length h
        simp [g1] at this; omega
      · intro x hx
        obtain ⟨i, hi, rfl⟩ := List.mem_map.1 hx
        obtain ⟨hi', he⟩ := hget i hi
        rw [he]
        have hfi := (g3 i hi).1
        have hfpos : ∃ hf : first < bins.length, 0 < bins[first] := by
          refine ⟨by omega, ?_⟩
          by_cases hb : b > 0
          · have : first = 0 := by rw [hfirst, if_pos hb]
            simp only [this]; exact hb
          · have h1' : first = 1 := by rw [hfirst, if_neg hb]
            rcases hpos with ⟨x, hx, hx0⟩ | ⟨x, hx, hx0⟩
            · simp [hbins] at hx; subst hx; exact absurd hx0 hb
            · have hl1 : 1 < bins.length := by omega
              rw [List.getElem?_eq_getElem hl1, Option.some.injEq] at hx
              simp only [h1', hx]; exact hx0
        obtain ⟨hf, hp⟩ := hfpos
        rcases Nat.lt_or_eq_of_le hfi with hlt | heq
        · exact hp.trans (List.pairwise_iff_getElem.1 hs first i hf hi' hlt)
        · simp only [← heq]; exact hp

example : subsample 3 [0, 2, 5, 7, 9] = .ok [2, 5, 9] ∧ [0, 2, 5, 7, (9 : ℚ)].Pairwise (· < ·) := by
  refine ⟨by decide +kernel, by decide +kernel⟩

/-- C46, a gap: only the first bin is skipped when it is not positive, so a histogram with two or more non-positive bins
gives a non-positive upper bound (the lower bound being 0). -/
theorem C46_nonpositive_bound (b b' : ℚ) (bs : List ℚ) (maxCandidates : ℕ) (h1 : 1 ≤ maxCandidates) (hb : b ≤ 0)
    (hb' : b' ≤ 0) :
    ∃ l, subsample maxCandidates (b :: b' :: bs) = .ok l ∧ b' ∈ l := by
  refine ⟨_, rfl, ?_⟩
  rw [if_neg (not_lt.2 hb)]
  have hlen : (b :: b' :: bs).length = bs.length + 2 := rfl
  obtain ⟨_, _, _, g4, _⟩ := linspaceIds_spec (first := 1) (last := (b :: b' :: bs).length - 1)
    (m := min maxCandidates ((b :: b' :: bs).length - 1)) (by omega) (by omega)
  rw [List.mem_map]
  refine ⟨1, List.mem_of_head? g4, rfl⟩

/-! ### Lemmas on the lists -/

theorem mapM_forall₂ {A B : Type} {f : A → Except Err B} : ∀ {l : List A} {l' : List B}, l.mapM f = .ok l' →
    List.Forall₂ (fun a b => f a = .ok b) l l'
  | [], l', h => by
    rw [List.mapM_nil] at h
    change Except.ok [] = _ at h
    cases h; exact List.Forall₂.nil
  | a :: l, l', h => by
    rw [List.mapM_cons] at h
    rcases ha : f a with e | b
    · rw [ha] at h; cases h
    rcases hl : l.mapM f with e | bs
    · rw [ha, hl] at h; cases h
    rw [ha, hl] at h
    change Except.ok (b :: bs) = _ at h
    cases h
    exact List.Forall₂.cons ha (mapM_forall₂ hl)

theorem mapM_total {A B : Type} {f : A → Except Err B} : ∀ {l : List A}, (∀ a ∈ l, ∃ b, f a = .ok b) →
    ∃ l' : List B, l.mapM f = .ok l'
  | [], _ => ⟨[], rfl⟩
  | a :: l, h => by
    obtain ⟨b, hb⟩ := h a (by simp)
    obtain ⟨l', hl⟩ := mapM_total (f := f) (l := l) fun x hx => h x (by simp [hx])
    exact ⟨b :: l', by rw [List.mapM_cons, hb, hl]; rfl⟩

theorem pad_spec {A : Type} {a b : List A} {n : ℕ} (h : pad a n = .ok b) (hn : a.length ≤ n) :
    b.length = n ∧ a <+: b ∧ ∀ x ∈ b, x ∈ a := by
  unfold pad at h
  split_ifs at h with hlt
  · cases a with
    | nil => cases h
    | cons x a =>
      simp only [Except.ok.injEq] at h
      subst h
      refine ⟨by simp at hlt hn ⊢; omega, List.prefix_append _ _, ?_⟩
      intro y hy
      rcases List.mem_append.1 hy with hy | hy
      · exact hy
      · rw [(List.mem_replicate.1 hy).2]; simp
  · simp only [Except.ok.injEq] at h
    subst h
    exact ⟨by omega, List.prefix_refl _, fun x hx => hx⟩

theorem dupEach_length {A : Type} (a : List A) (n : ℕ) : (dupEach a n).length = a.length * n := by
  unfold dupEach
  induction a with
  | nil => simp
  | cons x a ih => rw [List.flatMap_cons, List.length_append, ih, List.length_replicate, List.length_cons]; ring

theorem dupEach_get {A : Type} : ∀ (a : List A) (n i : ℕ), i < a.length * n → (dupEach a n)[i]? = a[i / n]?
  | [], n, i, h => by simp at h
  | x :: a, n, i, h => by
    have hn : 0 < n := by
      rcases Nat.eq_zero_or_pos n with h0 | h0
      · subst h0; simp at h
      · exact h0
    have hcons : dupEach (x :: a) n = List.replicate n x ++ dupEach a n := rfl
    rw [hcons]
    by_cases hi : i < n
    · rw [List.getElem?_append_left (by simpa using hi), Nat.div_eq_of_lt hi]
      simp [hi]
    · have hi' : n ≤ i := by omega
      rw [List.getElem?_append_right (by simpa using hi'), List.length_replicate]
      rw [List.length_cons] at h
      rw [dupEach_get a n (i - n) (by rw [Nat.add_mul] at h; omega)]
      obtain ⟨k, rfl⟩ : ∃ k, i = k + n := ⟨i - n, by omega⟩
      rw [Nat.add_sub_cancel, Nat.add_div_right k hn]
      simp

theorem dupList_length {A : Type} (a : List A) (n : ℕ) : (dupList a n).length = n * a.length := by
  unfold dupList
  simp

theorem dupList_get {A : Type} (a : List A) : ∀ (n i : ℕ), i < n * a.length → (dupList a n)[i]? = a[i % a.length]?
  | 0, i, h => by simp at h
  | n + 1, i, h => by
    have hcons : dupList a (n + 1) = a ++ dupList a n := by simp [dupList, List.replicate_succ]
    rw [hcons]
    by_cases hi : i < a.length
    · rw [List.getElem?_append_left hi, Nat.mod_eq_of_lt hi]
    · rw [List.getElem?_append_right (by omega), dupList_get a n (i - a.length) (by rw [Nat.add_mul] at h; omega)]
      obtain ⟨k, rfl⟩ : ∃ k, i = k + a.length := ⟨i - a.length, by omega⟩
      rw [Nat.add_sub_cancel, Nat.add_mod_right]

theorem relativeStep_ok {maxValue maxCandidates : ℕ} {acc : ℕ → ℕ} {l : List ℕ}
    (h : relativeStep maxValue maxCandidates acc = .ok l) :
    1 ≤ maxValue ∧ 1 ≤ maxCandidates ∧ 1 ≤ l.length ∧ l.length ≤ maxCandidates := by
  have hno : ¬(maxValue = 0 ∨ maxCandidates = 0) := fun hc => by
    rw [(C46_relative_step_assert maxValue maxCandidates acc).2 hc] at h; cases h
  push Not at hno
  obtain ⟨l', hl, _, _, h3, h4, _⟩ := C46_relative_step maxValue maxCandidates acc (by omega) (by omega)
  rw [h] at hl; cases hl
  refine ⟨by omega, by omega, ?_, h4⟩
  cases l with
  | nil => simp at h3
  | cons x l => simp

theorem l0Bounds_ok {r : Request} {h : Hists} {acc : ℕ → ℕ} {l : List ℕ} (hl : l0Bounds r h acc = .ok l) :
    1 ≤ l.length ∧ (1 ≤ r.maxCandidates → l.length ≤ r.maxCandidates) ∧ (r.l0 = false → l.length = 1) := by
  unfold l0Bounds at hl
  split_ifs at hl with h0 hcs
  · obtain ⟨_, h2, h3, h4⟩ := relativeStep_ok hl
    exact ⟨h3, fun _ => h4.trans (Nat.sqrt_le_self _), by simp [h0]⟩
  · obtain ⟨_, h2, h3, h4⟩ := relativeStep_ok hl
    exact ⟨h3, fun _ => h4, by simp [h0]⟩
  · have : l.length = 1 := by
      simp only [Except.ok.injEq] at hl
      subst hl
      rcases r.l0Param with _ | a
      · rfl
      · dsimp only; split_ifs <;> rfl
    exact ⟨by omega, fun h => by omega, fun _ => this⟩

theorem le_maxLen {A : Type} (l : List (List A)) : ∀ a ∈ l, a.length ≤ maxLen l := by
  intro a ha
  exact (PDP.Analysis.Config.le_foldl_max (l.map List.length) 0).2 _ (List.mem_map_of_mem ha)

theorem maxLen_le {A : Type} (l : List (List A)) (n : ℕ) (h : ∀ a ∈ l, a.length ≤ n) : maxLen l ≤ n := by
  unfold maxLen
  have : ∀ (l : List ℕ) (k : ℕ), k ≤ n → (∀ x ∈ l, x ≤ n) → l.foldl max k ≤ n := by
    intro l
    induction l with
    | nil => intro k hk _; simpa using hk
    | cons x l ih =>
      intro k hk hx
      exact ih (max k x) (by have := hx x (by simp); omega) fun y hy => hx y (by simp [hy])
  exact this _ 0 (by omega) (by simpa using h)

theorem linspaceIds_length (first last m : ℕ) : (linspaceIds first last m).length = m := by
  unfold linspaceIds
  split_ifs with hm
  · simp [hm]
  · simp

theorem subsample_length {k : ℕ} {bins l : List ℚ} (h : subsample k bins = .ok l) : l.length ≤ k := by
  unfold subsample at h
  split at h
  · cases h
  · dsimp only at h
    simp only [Except.ok.injEq] at h
    subst h
    rw [List.length_map, linspaceIds_length]
    exact Nat.min_le_left _ _

/-- The lists of candidates which `linfLists` gives. -/
structure LinfSpec (r : Request) (h : Hists) (k : ℕ) (acc : ℕ → ℕ) (counts : Option (List ℕ))
    (sums : Option (List (List ℚ))) (len len' : ℕ) : Prop where
  pos : 1 ≤ len
  bound : len ≤ max 1 k
  count_some : r.count = true → ∃ c c0, counts = some c ∧ relativeStep h.linfMax k acc = .ok c0 ∧ c.length = len ∧
    c0 <+: c ∧ ∀ x ∈ c, x ∈ c0
  count_none : r.count = false → counts = none
  sum_some : r.sum = true → ∃ s, sums = some s ∧ s ≠ [] ∧ len' = max len s.length ∧ s.length = h.sums.length ∧
    List.Forall₂ (fun bins a => a.length = len ∧ ∃ a0, subsample k bins = .ok a0 ∧ a0 <+: a ∧ ∀ x ∈ a, x ∈ a0) h.sums s
  sum_none : r.sum = false → sums = none ∧ len' = len

theorem linfLists_sum_step {h : Hists} {k len : ℕ} {s0 s : List (List ℚ)} (hs0 : h.sums.mapM (subsample k) = .ok s0)
    (hs : (s0.mapM fun a => pad a len) = .ok s) (hlen : maxLen s0 ≤ len) :
    s.length = h.sums.length ∧
    List.Forall₂ (fun bins a => a.length = len ∧ ∃ a0, subsample k bins = .ok a0 ∧ a0 <+: a ∧ ∀ x ∈ a, x ∈ a0) h.sums s := by
  have f0 := mapM_forall₂ hs0
  have f1 := mapM_forall₂ hs
  refine ⟨by rw [← f1.length_eq, ← f0.length_eq], ?_⟩
  have hmem : ∀ a ∈ s0, a.length ≤ len := fun a ha => (le_maxLen s0 a ha).trans hlen
  clear hs0 hs hlen
  generalize h.sums = bs at f0 ⊢
  induction f0 generalizing s with
  | nil => cases f1; exact List.Forall₂.nil
  | cons ha f0 ih =>
    cases f1 with
    | cons hb f1 =>
      obtain ⟨p1, p2, p3⟩ := pad_spec hb (hmem _ (by simp))
      exact List.Forall₂.cons ⟨p1, _, ha, p2, p3⟩ (ih f1 fun a ha => hmem a (by simp [ha]))

theorem linfLists_spec {r : Request} {h : Hists} {k : ℕ} {acc : ℕ → ℕ} {counts : Option (List ℕ)}
    {sums : Option (List (List ℚ))} {len' : ℕ} (hl : linfLists r h k acc = .ok (counts, sums, len')) :
    ∃ len, LinfSpec r h k acc counts sums len len' := by
  unfold linfLists at hl
  cases hcount : r.count <;> cases hsum : r.sum <;> simp only [hcount, hsum] at hl
  · change Except.ok (none, none, 1) = _ at hl
    cases hl
    exact ⟨1, le_refl _, by omega, by simp [hcount], by simp, by simp [hsum], by simp⟩
  · by_cases hne : h.sums = []
    · rw [if_pos hne] at hl; cases hl
    rw [if_neg hne] at hl
    rcases hs0 : h.sums.mapM (subsample k) with e | s0
    · rw [hs0] at hl; cases hl
    rw [hs0] at hl
    rcases hs : (s0.mapM fun a => pad a (max 1 (maxLen s0))) with e | s
    · change ((s0.mapM fun a => pad a (max 1 (maxLen s0))).map some >>= _) = _ at hl
      rw [hs] at hl; cases hl
    change ((s0.mapM fun a => pad a (max 1 (maxLen s0))).map some >>= _) = _ at hl
    rw [hs] at hl
    change Except.ok (none, some s, max (max 1 (maxLen s0)) s.length) = _ at hl
    cases hl
    obtain ⟨q1, q2⟩ := linfLists_sum_step hs0 hs (le_max_right _ _)
    have hk : maxLen s0 ≤ k := by
      apply maxLen_le
      intro a ha
      obtain ⟨i, hi, rfl⟩ := List.getElem_of_mem ha
      have f := mapM_forall₂ hs0
      have := f.get (by rw [f.length_eq]; exact hi) hi
      exact subsample_length this
    refine ⟨max 1 (maxLen s0), by omega, by omega, by simp [hcount], by simp, fun _ => ⟨s, rfl, ?_, rfl, q1, q2⟩, by simp [hsum]⟩
    intro h0
    rw [h0] at q1
    exact hne (List.length_eq_zero_iff.1 q1.symm)
  · rcases hc0 : relativeStep h.linfMax k acc with e | c0
    · rw [hc0] at hl; cases hl
    rw [hc0] at hl
    obtain ⟨_, _, g3, g4⟩ := relativeStep_ok hc0
    have hp : pad c0 c0.length = .ok c0 := by unfold pad; rw [if_neg (lt_irrefl _)]
    change ((pad c0 c0.length).map some >>= _) = _ at hl
    rw [hp] at hl
    change Except.ok (some c0, none, c0.length) = _ at hl
    cases hl
    exact ⟨c0.length, g3, by omega, fun _ => ⟨c0, c0, rfl, hc0, rfl, List.prefix_refl _, fun x hx => hx⟩, by simp [hcount], by simp [hsum], by simp⟩
  · rcases hc0 : relativeStep h.linfMax k acc with e | c0
    · rw [hc0] at hl; cases hl
    by_cases hne : h.sums = []
    · rw [hc0, if_pos hne] at hl; cases hl
    rw [hc0, if_neg hne] at hl
    obtain ⟨_, _, g3, g4⟩ := relativeStep_ok hc0
    rcases hs0 : h.sums.mapM (subsample k) with e | s0
    · rw [hs0] at hl; cases hl
    rw [hs0] at hl
    set len := max c0.length (maxLen s0) with hlen
    change ((pad c0 len).map some >>= fun counts => (s0.mapM fun a => pad a len).map some >>= _) = _ at hl
    rcases hc : pad c0 len with e | c
    · rw [hc] at hl; cases hl
    rcases hs : (s0.mapM fun a => pad a len) with e | s
    · rw [hc, hs] at hl; cases hl
    rw [hc, hs] at hl
    change Except.ok (some c, some s, max len s.length) = _ at hl
    cases hl
    obtain ⟨q1, q2⟩ := linfLists_sum_step hs0 hs (by omega)
    obtain ⟨p1, p2, p3⟩ := pad_spec hc (by omega)
    have hk : maxLen s0 ≤ k := by
      apply maxLen_le
      intro a ha
      obtain ⟨i, hi, rfl⟩ := List.getElem_of_mem ha
      have f := mapM_forall₂ hs0
      have := f.get (by rw [f.length_eq]; exact hi) hi
      exact subsample_length this
    refine ⟨len, by omega, by omega, fun _ => ⟨c, c0, rfl, hc0, p1, p2, p3⟩, by simp [hcount], fun _ => ⟨s, rfl, ?_, rfl, q1, q2⟩, by simp [hsum]⟩
    intro h0
    rw [h0] at q1
    exact hne (List.length_eq_zero_iff.1 q1.symm)

theorem sumLists_length {s : List (List ℚ)} {len : ℕ} (hne : s ≠ []) (h : ∀ a ∈ s, a.length = len) :
    (sumLists s).1.length = len ∧ (sumLists s).2.length = len := by
  unfold sumLists
  split
  · rename_i c; have := h c (by simp); simp [this]
  · rcases s with _ | ⟨a, s⟩
    · exact absurd rfl hne
    · have := h a (by simp)
      simp [rowsOf, this]

/-! ### C46: the configuration -/

/-- **C46** (the bounds of the sums). For one column the candidates are intervals from 0 to the candidate of the column; for
several columns the `i`-th candidate bounds every column from 0 to the `i`-th candidate of that column. -/
theorem C46_sum_bounds (m : ℕ) :
    (∀ col : List ℚ, col.length = m → ∀ i < m, (sumLists [col]).1[i]? = some (.num 0) ∧
      (sumLists [col]).2[i]? = (col[i]?).map .num) ∧
    (∀ cols : List (List ℚ), 2 ≤ cols.length → (∀ col ∈ cols, col.length = m) → ∀ i < m,
      (∃ z, (sumLists cols).1[i]? = some (.seq z) ∧ z.length = cols.length ∧ ∀ x ∈ z, x = 0) ∧
      (∃ z, (sumLists cols).2[i]? = some (.seq z) ∧ List.Forall₂ (fun (col : List ℚ) x => col[i]? = some x) cols z)) := by
  constructor
  · intro col hl i hi
    have hi' : i < col.length := by omega
    simp [sumLists, hi']
  · intro cols h2 hl i hi
    have hs : sumLists cols = ((rowsOf cols).map fun _ => .seq (List.replicate cols.length 0), (rowsOf cols).map .seq) := by
      rcases cols with _ | ⟨a, _ | ⟨b, cs⟩⟩
      · simp at h2
      · simp at h2
      · rfl
    have hlen : (cols.headD []).length = m := by
      rcases cols with _ | ⟨a, cs⟩
      · simp at h2
      · exact hl a (by simp)
    have hr : (rowsOf cols)[i]? = some (cols.map fun c => c.getD i 0) := by
      unfold rowsOf
      rw [hlen, List.getElem?_map, List.getElem?_range hi]; rfl
    rw [hs]
    simp only [List.getElem?_map, hr, Option.map_some]
    refine ⟨⟨_, rfl, by simp, fun x hx => (List.mem_replicate.1 hx).2⟩, _, rfl, ?_⟩
    rw [List.forall₂_map_right_iff, List.forall₂_same]
    intro col hc
    have : i < col.length := by rw [hl col hc]; exact hi
    simp [this]

example : sumLists [[1, 6], [2, 3]] = ([.seq [0, 0], .seq [0, 0]], [.seq [1, 2], .seq [6, 3]]) := by decide +kernel


/-- `l` lists for every configuration `i` (of `n`) the element of `base` which the cross product asks for, `m` being the
number of bounds per partition. -/
def Inner {A : Type} (n m : ℕ) (base : List A) (l : Option (List A)) : Prop :=
  ∃ l', l = some l' ∧ l'.length = n ∧ base.length = m ∧ ∀ i < n, l'[i]? = base[i % m]?

theorem inner_dup {A : Type} {a : List A} {n m k : ℕ} (hn : n = k * m) (ha : a.length = m) :
    Inner n m a (some (dupList a k)) := by
  refine ⟨_, rfl, by rw [dupList_length, ha, hn], ha, ?_⟩
  intro i hi
  rw [dupList_get a k i (by rw [ha]; omega), ha]

/-- **C46** (the configuration). Whenever tuning finds candidates: with `l0s` the candidates for the number of partitions and
`m` the number of candidates for the contribution to one partition, there are `|l0s| · m` configurations, no more than asked
for, all attributes have that many elements, and configuration `i` combines the `i / m`-th bound on the partitions with the
`i % m`-th bounds per partition; the latter come from the histograms (the shorter lists are filled up with their own
elements), all minima of sums being 0. -/
theorem C46_configuration (r : Request) (h : Hists) (acc1 acc2 : ℕ → ℕ) (c : Multi Unit Unit)
    (h1 : 1 ≤ r.maxCandidates) (hc : findCandidates r h acc1 acc2 = .ok c) :
    ∃ l0s m n, c.check = .ok n ∧ l0Bounds r h acc1 = .ok l0s ∧ n = l0s.length * m ∧ 1 ≤ n ∧ n ≤ r.maxCandidates ∧
      (∃ l, c.l0 = some l ∧ l.length = n ∧ ∀ i < n, l[i]? = l0s[i / m]?) ∧
      (r.count = false → c.linf = none) ∧
      (r.count = true → ∃ base c0, relativeStep h.linfMax (r.maxCandidates / l0s.length) acc2 = .ok c0 ∧
        c0 <+: base ∧ (∀ x ∈ base, x ∈ c0) ∧ Inner n m base c.linf) ∧
      (r.sum = false → c.minSum = none ∧ c.maxSum = none) ∧
      (r.sum = true → ∃ cols, Inner n m (sumLists cols).1 c.minSum ∧ Inner n m (sumLists cols).2 c.maxSum ∧
        List.Forall₂ (fun bins a => a.length = m ∧
          ∃ a0, subsample (r.maxCandidates / l0s.length) bins = .ok a0 ∧ a0 <+: a ∧ ∀ x ∈ a, x ∈ a0) h.sums cols) := by
  unfold findCandidates at hc
  rcases hl0 : l0Bounds r h acc1 with e | l0s
  · rw [hl0] at hc; cases hc
  rw [hl0] at hc
  obtain ⟨g1, g2, g3⟩ := l0Bounds_ok hl0
  change (linfLists r h (r.maxCandidates / l0s.length) acc2 >>= _) = _ at hc
  rcases hli : linfLists r h (r.maxCandidates / l0s.length) acc2 with e | ⟨counts, sums, len'⟩
  · rw [hli] at hc; cases hc
  rw [hli] at hc
  obtain ⟨len, sp⟩ := linfLists_spec hli
  set cfg : Multi Unit Unit := ⟨some (dupEach l0s len'), counts.map fun a => dupList a l0s.length,
    sums.map fun a => dupList (sumLists a).1 l0s.length, sums.map fun a => dupList (sumLists a).2 l0s.length, none, none⟩
    with hcfg
  change (match cfg.check with | .ok _ => Except.ok cfg | .error _ => Except.error Err.valueError) = _ at hc
  rcases hck : cfg.check with e | n
  · rw [hck] at hc; cases hc
  rw [hck] at hc
  simp only [Except.ok.injEq] at hc
  subst hc
  obtain ⟨hn, _, hL0, _, hmin, _⟩ := PDP.Analysis.Config.C55_lengths cfg n hck
  have hlen'pos : 1 ≤ len' := by
    cases hsum : r.sum
    · have := (sp.sum_none hsum).2; have := sp.pos; omega
    · obtain ⟨s, _, _, h, _⟩ := sp.sum_some hsum; have := sp.pos; omega
  have hnn : n = l0s.length * len' := by
    rcases hL0 with h | h | ⟨l, h, _, h2⟩
    · cases h
    · simp only [hcfg, Option.some.injEq] at h
      have := congrArg List.length h
      rw [dupEach_length, List.length_nil] at this
      have := Nat.mul_pos g1 hlen'pos
      omega
    · simp only [hcfg, Option.some.injEq] at h
      subst h
      rw [← h2, dupEach_length]
  have hlens : len' = len := by
    cases hsum : r.sum
    · exact (sp.sum_none hsum).2
    · obtain ⟨s, hs, hne, h3, h4, f⟩ := sp.sum_some hsum
      have hcols : ∀ a ∈ s, a.length = len := by
        intro a ha
        obtain ⟨i, hi, rfl⟩ := List.getElem_of_mem ha
        exact (f.get (by rw [f.length_eq]; exact hi) hi).1
      have hml := (sumLists_length hne hcols).1
      rcases hmin with h | h | ⟨l, h, _, h2⟩
      · simp [hcfg, hs] at h
      · simp only [hcfg, hs, Option.map_some, Option.some.injEq] at h
        have := congrArg List.length h
        rw [dupList_length, hml, List.length_nil] at this
        have := Nat.mul_pos g1 sp.pos
        omega
      · simp only [hcfg, hs, Option.map_some, Option.some.injEq] at h
        subst h
        rw [dupList_length, hml, hnn] at h2
        exact (Nat.eq_of_mul_eq_mul_left (by omega) h2).symm
  subst hlens
  have hle : n ≤ r.maxCandidates := by
    rw [hnn]
    have hk : 1 ≤ r.maxCandidates / l0s.length := by
      rw [Nat.le_div_iff_mul_le (by omega)]; have := g2 h1; omega
    have hb : len' ≤ r.maxCandidates / l0s.length := by have := sp.bound; omega
    exact (Nat.mul_le_mul_left _ hb).trans (Nat.mul_div_le _ _)
  refine ⟨l0s, len', n, hck, rfl, hnn, hn, hle, ⟨_, rfl, by rw [dupEach_length, hnn], ?_⟩, ?_, ?_, ?_, ?_⟩
  · intro i hi; exact dupEach_get _ _ _ (by omega)
  · intro hcount; simp [hcfg, sp.count_none hcount]
  · intro hcount
    obtain ⟨c, c0, e1, e2, e3, e4, e5⟩ := sp.count_some hcount
    refine ⟨c, c0, e2, e4, e5, ?_⟩
    simp only [hcfg, e1, Option.map_some]
    exact inner_dup hnn e3
  · intro hsum; simp [hcfg, (sp.sum_none hsum).1]
  · intro hsum
    obtain ⟨s, hs, hne, h3, h4, f⟩ := sp.sum_some hsum
    have hcols : ∀ a ∈ s, a.length = len' := by
      intro a ha
      obtain ⟨i, hi, rfl⟩ := List.getElem_of_mem ha
      exact (f.get (by rw [f.length_eq]; exact hi) hi).1
    obtain ⟨k1, k2⟩ := sumLists_length hne hcols
    refine ⟨s, ?_, ?_, f⟩
    · simp only [hcfg, hs, Option.map_some]; exact inner_dup hnn k1
    · simp only [hcfg, hs, Option.map_some]; exact inner_dup hnn k2

/-- **C46** (partitions not tuned). When the number of partitions is not to be tuned, every configuration has the number of
partitions of the given parameters, or 1 if they have none (or 0). -/
theorem C46_partitions_not_tuned (r : Request) (h : Hists) (acc1 acc2 : ℕ → ℕ) (c : Multi Unit Unit)
    (h1 : 1 ≤ r.maxCandidates) (h0 : r.l0 = false) (hc : findCandidates r h acc1 acc2 = .ok c) :
    ∃ l, c.l0 = some l ∧ 1 ≤ l.length ∧
      (∀ v, r.l0Param = some v → 1 ≤ v → ∀ x ∈ l, x = v) ∧ (r.l0Param = none ∨ r.l0Param = some 0 → ∀ x ∈ l, x = 1) := by
  obtain ⟨l0s, m, n, _, e2, e3, e4, _, ⟨l, e5, e6, e7⟩, _⟩ := C46_configuration r h acc1 acc2 c h1 hc
  have hone := (l0Bounds_ok e2).2.2 h0
  rw [hone, one_mul] at e3
  subst e3
  have hall : ∀ x ∈ l, l0s = [x] := by
    intro x hx
    obtain ⟨i, hi, rfl⟩ := List.getElem_of_mem hx
    have := e7 i (by omega)
    rw [List.getElem?_eq_getElem hi, Nat.div_eq_of_lt (by omega)] at this
    match l0s, hone, this with
    | [y], _, this => simpa using this.symm
  have he : l0s = match r.l0Param with | some l0 => if l0 = 0 then [1] else [l0] | none => [1] := by
    unfold l0Bounds at e2
    rw [if_neg (by simp [h0])] at e2
    exact (Except.ok.inj e2).symm
  refine ⟨l, e5, by omega, ?_, ?_⟩
  · intro v hv hpos x hx
    have := hall x hx
    rw [he, hv] at this
    dsimp only at this
    rw [if_neg (by omega)] at this
    simpa using this.symm
  · intro hp x hx
    have := hall x hx
    rw [he] at this
    rcases hp with hp | hp <;> rw [hp] at this <;> simpa using this.symm

/-- C46, a gap: sums of more columns than candidates asked for cannot be tuned, whatever the histograms are: the number of
columns is mistaken for a number of candidates, and the configuration is refused. -/
theorem C46_multi_column_failure (r : Request) (h : Hists) (acc1 acc2 : ℕ → ℕ) (h1 : 1 ≤ r.maxCandidates)
    (hs : r.sum = true) (hcols : r.maxCandidates < h.sums.length) (c : Multi Unit Unit) :
    findCandidates r h acc1 acc2 ≠ .ok c := by
  intro hc
  unfold findCandidates at hc
  rcases hl0 : l0Bounds r h acc1 with e | l0s
  · rw [hl0] at hc; cases hc
  rw [hl0] at hc
  obtain ⟨g1, g2, g3⟩ := l0Bounds_ok hl0
  change (linfLists r h (r.maxCandidates / l0s.length) acc2 >>= _) = _ at hc
  rcases hli : linfLists r h (r.maxCandidates / l0s.length) acc2 with e | ⟨counts, sums, len'⟩
  · rw [hli] at hc; cases hc
  obtain ⟨len, sp⟩ := linfLists_spec hli
  obtain ⟨s, hs', hne, h3, h4, f⟩ := sp.sum_some hs
  obtain ⟨l0s', m, n, _, hl0', hn, hn1, hle, ⟨l, hcl, hll, _⟩, _⟩ := C46_configuration r h acc1 acc2 c h1 (by
    unfold findCandidates; rw [hl0]; exact hc)
  rw [hl0] at hl0'
  cases hl0'
  rw [hli] at hc
  set cfg : Multi Unit Unit := ⟨some (dupEach l0s len'), counts.map fun a => dupList a l0s.length,
    sums.map fun a => dupList (sumLists a).1 l0s.length, sums.map fun a => dupList (sumLists a).2 l0s.length, none, none⟩
    with hcfg
  change (match cfg.check with | .ok _ => Except.ok cfg | .error _ => Except.error Err.valueError) = _ at hc
  rcases hck : cfg.check with e | n'
  · rw [hck] at hc; cases hc
  rw [hck] at hc
  simp only [Except.ok.injEq] at hc
  subst hc
  simp only [hcfg, Option.some.injEq] at hcl
  subst hcl
  rw [dupEach_length] at hll
  have : len' ≤ l0s.length * len' := Nat.le_mul_of_pos_left _ (by omega)
  omega

theorem pad_total {A : Type} (a : List A) (n : ℕ) (h : a ≠ []) : ∃ b, pad a n = .ok b := by
  unfold pad
  split_ifs
  · cases a with
    | nil => exact absurd rfl h
    | cons x a => exact ⟨_, rfl⟩
  · exact ⟨_, rfl⟩

theorem check_single {cfg : Multi Unit Unit} {n : ℕ} (hn : 0 < n) {l0 : List ℕ} (h0 : cfg.l0 = some l0) (hl0 : l0.length = n)
    (h1 : ∀ l, cfg.linf = some l → l.length = n) (h2 : ∀ l, cfg.minSum = some l → l.length = n ∧ ∀ v ∈ l, v.isSeq = false)
    (h3 : ∀ l, cfg.maxSum = some l → l.length = n) (h4 : cfg.minSum = none ↔ cfg.maxSum = none)
    (h5 : cfg.noise = none) (h6 : cfg.strategy = none) : cfg.check = .ok n := by
  have hsz : ∀ {A : Type} (o : Option (List A)), (∀ l, o = some l → l.length = n) →
      ∀ m ∈ PDP.Analysis.Config.sizeOf o, m = n := by
    intro A o ho m hm
    obtain ⟨l, hl, _, rfl⟩ := PDP.Analysis.Config.mem_sizeOf.1 hm
    exact ho l hl
  have hall : ∀ m ∈ cfg.sizes, m = n := by
    intro m hm
    simp only [Multi.sizes, List.mem_append] at hm
    rcases hm with ((((hm | hm) | hm) | hm) | hm) | hm
    · exact hsz _ (by intro l hl; rw [h0] at hl; cases hl; exact hl0) m hm
    · exact hsz _ h1 m hm
    · exact hsz _ (fun l hl => (h2 l hl).1) m hm
    · exact hsz _ h3 m hm
    · rw [h5] at hm; simp [PDP.Analysis.Config.sizeOf, given] at hm
    · rw [h6] at hm; simp [PDP.Analysis.Config.sizeOf, given] at hm
  have hmem : n ∈ cfg.sizes := by
    simp only [Multi.sizes, List.mem_append]
    refine Or.inl (Or.inl (Or.inl (Or.inl (Or.inl (PDP.Analysis.Config.mem_sizeOf.2 ⟨l0, h0, ?_, hl0⟩)))))
    intro h; subst h; simp at hl0; omega
  unfold Multi.check
  rcases hs : cfg.sizes with _ | ⟨m, ms⟩
  · rw [hs] at hmem; simp at hmem
  have hm : m = n := hall m (by rw [hs]; simp)
  subst hm
  have hms : ∀ x ∈ ms, x = m := fun x hx => hall x (by rw [hs]; simp [hx])
  dsimp only
  rw [if_neg (not_not.2 ((PDP.Analysis.Config.min_eq_max_iff _ _).2 hms)), if_neg]
  · split_ifs with hg hq
    · exfalso
      rcases hmn : cfg.minSum with _ | l
      · rw [hmn] at hg; simp [given] at hg
      · obtain ⟨_, hk⟩ := h2 l hmn
        rw [hmn] at hg hq
        cases l with
        | nil => simp [given] at hg
        | cons v l =>
          have := hk v (by simp)
          simp [this] at hq
    · rfl
    · rfl
  · rcases hmn : cfg.minSum with _ | _ <;> rcases hmx : cfg.maxSum with _ | _ <;> simp_all

/-- **C46** (success). Candidates are found whenever at least one is asked for, the histograms which are used are not empty
and, for sums, there is one column whose first or second bin has a positive maximum. -/
theorem C46_succeeds (r : Request) (h : Hists) (acc1 acc2 : ℕ → ℕ) (h1 : 1 ≤ r.maxCandidates)
    (hl0 : r.l0 = true → 1 ≤ h.l0Max) (hlinf : r.count = true → 1 ≤ h.linfMax)
    (hsums : r.sum = true → ∃ bins, h.sums = [bins] ∧ bins.Pairwise (· < ·) ∧
      ((∃ b, bins.head? = some b ∧ 0 < b) ∨ (∃ b, bins[1]? = some b ∧ 0 < b))) :
    ∃ c, findCandidates r h acc1 acc2 = .ok c := by
  obtain ⟨l0s, hl0s⟩ : ∃ l0s, l0Bounds r h acc1 = .ok l0s := by
    unfold l0Bounds
    split_ifs with h0 hcs
    · obtain ⟨l, hl, _⟩ := C46_relative_step h.l0Max (Nat.sqrt r.maxCandidates) acc1 (hl0 h0) (Nat.sqrt_pos.2 h1)
      exact ⟨l, hl⟩
    · obtain ⟨l, hl, _⟩ := C46_relative_step h.l0Max r.maxCandidates acc1 (hl0 h0) h1
      exact ⟨l, hl⟩
    · exact ⟨_, rfl⟩
  obtain ⟨g1, g2, g3⟩ := l0Bounds_ok hl0s
  have hk : 1 ≤ r.maxCandidates / l0s.length := by
    rw [Nat.le_div_iff_mul_le (by omega)]; have := g2 h1; omega
  set k := r.maxCandidates / l0s.length with hkdef
  have hstep : r.count = true → ∃ c0, relativeStep h.linfMax k acc2 = .ok c0 ∧ c0 ≠ [] := by
    intro hc
    obtain ⟨l, hl, _, _, hh, _⟩ := C46_relative_step h.linfMax k acc2 (hlinf hc) hk
    exact ⟨l, hl, by rintro rfl; simp at hh⟩
  have hsub : r.sum = true → ∃ bins a0, h.sums = [bins] ∧ subsample k bins = .ok a0 ∧ a0 ≠ [] := by
    intro hc
    obtain ⟨bins, hb, hp, hpos⟩ := hsums hc
    have hne : bins ≠ [] := by
      rintro rfl
      rcases hpos with ⟨b, hb, _⟩ | ⟨b, hb, _⟩ <;> simp at hb
    obtain ⟨l, hl, _, _, _, _, hh⟩ := C46_subsample k bins hk hne hp
    exact ⟨bins, l, hb, hl, (hh hpos).1⟩
  obtain ⟨counts, sums, len', hli⟩ : ∃ counts sums len', linfLists r h k acc2 = .ok (counts, sums, len') := by
    unfold linfLists
    cases hcount : r.count <;> cases hsum : r.sum
    · exact ⟨none, none, 1, rfl⟩
    · obtain ⟨bins, a0, hb, ha, hne⟩ := hsub hsum
      obtain ⟨b, hpad⟩ := pad_total a0 (max 1 (maxLen [a0])) hne
      refine ⟨none, some [b], max (max 1 (maxLen [a0])) 1, ?_⟩
      simp only [hb]
      rw [if_neg (by simp), List.mapM_cons, ha]
      change (([a0].mapM fun a => pad a (max 1 (maxLen [a0]))).map some >>= _) = _
      rw [List.mapM_cons, hpad]
      rfl
    · obtain ⟨c0, hc0, hne⟩ := hstep hcount
      obtain ⟨b, hpad⟩ := pad_total c0 c0.length hne
      refine ⟨some b, none, c0.length, ?_⟩
      rw [hc0]
      change ((pad c0 c0.length).map some >>= _) = _
      rw [hpad]
      rfl
    · obtain ⟨c0, hc0, hnec⟩ := hstep hcount
      obtain ⟨bins, a0, hb, ha, hne⟩ := hsub hsum
      obtain ⟨b, hpad⟩ := pad_total a0 (max c0.length (maxLen [a0])) hne
      obtain ⟨b', hpad'⟩ := pad_total c0 (max c0.length (maxLen [a0])) hnec
      refine ⟨some b', some [b], max (max c0.length (maxLen [a0])) 1, ?_⟩
      have hb' : h.sums ≠ [] := by rw [hb]; simp
      rw [if_pos rfl, hc0]
      change ((if h.sums = [] then Except.error Err.valueError else (h.sums.mapM (subsample k)).map some) >>= _) = _
      rw [if_neg hb', hb, List.mapM_cons, ha]
      change ((pad c0 (max c0.length (maxLen [a0]))).map some >>= fun counts =>
        ([a0].mapM fun a => pad a (max c0.length (maxLen [a0]))).map some >>= _) = _
      rw [List.mapM_cons, hpad, hpad']
      rfl
  obtain ⟨len, sp⟩ := linfLists_spec hli
  set cfg : Multi Unit Unit := ⟨some (dupEach l0s len'), counts.map fun a => dupList a l0s.length,
    sums.map fun a => dupList (sumLists a).1 l0s.length, sums.map fun a => dupList (sumLists a).2 l0s.length, none, none⟩
    with hcfg
  have hone : ∀ s, sums = some s → ∃ col, s = [col] ∧ col.length = len := by
    intro s hs
    cases hsum : r.sum
    · rw [(sp.sum_none hsum).1] at hs; cases hs
    · obtain ⟨s', hs', _, _, h4, f⟩ := sp.sum_some hsum
      rw [hs] at hs'; cases hs'
      obtain ⟨bins, a0, hb, _⟩ := hsub hsum
      rw [hb] at f
      cases f with
      | cons hp f => cases f; exact ⟨_, rfl, hp.1⟩
  have hlens : len' = len := by
    cases hsum : r.sum
    · exact (sp.sum_none hsum).2
    · obtain ⟨s', hs', _, h3, h4, f⟩ := sp.sum_some hsum
      obtain ⟨col, rfl, _⟩ := hone s' hs'
      have := sp.pos
      simp at h3
      omega
  subst hlens
  have hck : cfg.check = .ok (l0s.length * len') := by
    refine check_single (Nat.mul_pos (by omega) sp.pos) rfl (dupEach_length _ _) ?_ ?_ ?_ ?_ rfl rfl
    · intro l hl
      cases hcount : r.count
      · simp [hcfg, sp.count_none hcount] at hl
      · obtain ⟨c, c0, e1, _, e3, _⟩ := sp.count_some hcount
        simp only [hcfg, e1, Option.map_some, Option.some.injEq] at hl
        subst hl
        rw [dupList_length, e3]
    · intro l hl
      simp only [hcfg, Option.map_eq_some_iff] at hl
      obtain ⟨s, hs, rfl⟩ := hl
      obtain ⟨col, rfl, hcol⟩ := hone s hs
      refine ⟨by rw [dupList_length]; simp [sumLists, hcol], ?_⟩
      intro v hv
      simp only [dupList, sumLists, List.mem_flatten, List.mem_replicate] at hv
      obtain ⟨t, ⟨_, rfl⟩, hv⟩ := hv
      obtain ⟨_, _, rfl⟩ := List.mem_map.1 hv
      rfl
    · intro l hl
      simp only [hcfg, Option.map_eq_some_iff] at hl
      obtain ⟨s, hs, rfl⟩ := hl
      obtain ⟨col, rfl, hcol⟩ := hone s hs
      rw [dupList_length]; simp [sumLists, hcol]
    · simp [hcfg]
  refine ⟨cfg, ?_⟩
  unfold findCandidates
  rw [hl0s]
  change (linfLists r h (r.maxCandidates / l0s.length) acc2 >>= _) = _
  rw [hli]
  change (match cfg.check with | .ok _ => Except.ok cfg | .error _ => Except.error Err.valueError) = _
  rw [hck]

/-- Three bounds for the number of partitions times three per partition; the two bounds of the sums are filled up. -/
example :
    (findCandidates ⟨true, true, true, none, 9⟩ ⟨4, 10, [[1, 6]]⟩ (fun i => 2 * i) (fun i => 3 * i)).toOption.map
      (fun c => (c.l0, c.linf, c.maxSum)) =
    some (some [1, 1, 1, 2, 2, 2, 4, 4, 4], some [1, 3, 10, 1, 3, 10, 1, 3, 10],
      some [.num 1, .num 6, .num 1, .num 1, .num 6, .num 1, .num 1, .num 6, .num 1]) := by decide +kernel

/-- The number of partitions is not tuned: it is 3 in all configurations. -/
example :
    (findCandidates ⟨false, true, false, some 3, 4⟩ ⟨4, 10, []⟩ (fun i => 2 * i) (fun i => 3 * i)).toOption.map (fun c => c.l0) =
    some (some [3, 3, 3, 3]) := by decide +kernel

/-- The hypotheses of the failure: three columns, two candidates. -/
example : findCandidates ⟨false, false, true, some 3, 2⟩ ⟨4, 10, [[1, 6], [2, 3], [5, 8]]⟩ id id =
    .error .valueError := by
  rfl

/-! ### C46: the recommended configuration -/

/-- `np.argmin`: position of the first smallest element; `bestPos` and `best` are the ones found so far. -/
def argminGo {Q : Type} [LinearOrder Q] : List Q → ℕ → ℕ → Q → ℕ
  | [], _, bestPos, _ => bestPos
  | x :: l, pos, bestPos, best => if x < best then argminGo l (pos + 1) pos x else argminGo l (pos + 1) bestPos best

/-- `np.argmin` raises `ValueError` on an empty list. -/
def argmin {Q : Type} [LinearOrder Q] : List Q → Except Err ℕ
  | [] => .error .valueError
  | x :: l => .ok (argminGo l 1 0 x)

/-- `_convert_utility_analysis_to_tune_result` (`parameter_tuning.py:418-448`) on reports (configuration index, rmse of the
first metric); `hasMetrics` says that metrics are computed.  `none` is the index −1. -/
def indexBest {Q : Type} [LinearOrder Q] (reports : List (ℕ × Q)) (size : ℕ) (hasMetrics : Bool) : Except Err (Option ℕ) :=
  if reports.length ≠ size then .error .assertionError
  else if hasMetrics then
    (argmin ((reports.insertionSort fun a b => a.1 ≤ b.1).map Prod.snd)).map some
  else .ok none

theorem argminGo_spec {Q : Type} [LinearOrder Q] : ∀ (l : List Q) (done : List Q) (bestPos : ℕ) (best : Q),
    done[bestPos]? = some best → (∀ j x, done[j]? = some x → best ≤ x ∧ (x = best → bestPos ≤ j)) →
    ∃ b, (done ++ l)[argminGo l done.length bestPos best]? = some b ∧
      ∀ j x, (done ++ l)[j]? = some x → b ≤ x ∧ (x = b → argminGo l done.length bestPos best ≤ j)
  | [], done, bestPos, best, h1, h2 => ⟨best, by simpa [argminGo] using h1, by simpa [argminGo] using h2⟩
  | y :: l, done, bestPos, best, h1, h2 => by
    have happ : done ++ y :: l = (done ++ [y]) ++ l := by simp
    have hlen : done.length + 1 = (done ++ [y]).length := by simp
    have hbp : bestPos < done.length := by
      by_contra hc; rw [List.getElem?_eq_none (by omega)] at h1; cases h1
    unfold argminGo
    split_ifs with hy
    · rw [happ, hlen]
      refine argminGo_spec l (done ++ [y]) done.length y (by simp) ?_
      intro j x hx
      by_cases hj : j < done.length
      · rw [List.getElem?_append_left hj] at hx
        have := (h2 j x hx).1
        exact ⟨(hy.trans_le this).le, fun h => by rw [h] at this; exact absurd hy (not_lt.2 this)⟩
      · rw [List.getElem?_append_right (by omega)] at hx
        have : j - done.length = 0 := by
          by_contra hc; rw [List.getElem?_eq_none (by simp; omega)] at hx; cases hx
        rw [this] at hx
        simp at hx
        exact ⟨hx.le, fun _ => by omega⟩
    · rw [happ, hlen]
      refine argminGo_spec l (done ++ [y]) bestPos best (by rw [List.getElem?_append_left hbp]; exact h1) ?_
      intro j x hx
      by_cases hj : j < done.length
      · rw [List.getElem?_append_left hj] at hx
        exact h2 j x hx
      · rw [List.getElem?_append_right (by omega)] at hx
        have : j - done.length = 0 := by
          by_contra hc; rw [List.getElem?_eq_none (by simp; omega)] at hx; cases hx
        rw [this] at hx
        simp at hx
        subst hx
        exact ⟨not_lt.1 hy, fun _ => by omega⟩

theorem argmin_spec {Q : Type} [LinearOrder Q] {l : List Q} (hne : l ≠ []) : ∃ i b, argmin l = .ok i ∧ l[i]? = some b ∧
    ∀ j x, l[j]? = some x → b ≤ x ∧ (x = b → i ≤ j) := by
  cases l with
  | nil => exact absurd rfl hne
  | cons y l =>
    obtain ⟨b, h1, h2⟩ := argminGo_spec l [y] 0 y rfl (by
      intro j x hx
      cases j with
      | zero => simp at hx; exact ⟨hx.le, fun _ => le_refl _⟩
      | succ j => simp at hx)
    exact ⟨_, b, rfl, h1, h2⟩

/-- **C46** (the recommendation). With one report per configuration, in any order, the index which is recommended is that of
a configuration whose error is smallest, the first one of them. -/
theorem C46_best {Q : Type} [LinearOrder Q] (reports : List (ℕ × Q)) (size : ℕ) (h0 : 1 ≤ size)
    (hidx : (reports.map Prod.fst).Perm (List.range size)) :
    ∃ i e, indexBest reports size true = .ok (some i) ∧ i < size ∧ (i, e) ∈ reports ∧
      ∀ j e', (j, e') ∈ reports → e ≤ e' ∧ (e' = e → i ≤ j) := by
  have hlen : reports.length = size := by simpa using hidx.length_eq
  set sorted := reports.insertionSort fun a b => a.1 ≤ b.1 with hsorted
  have hperm : sorted.Perm reports := List.perm_insertionSort _ _
  have hpw : (sorted.map Prod.fst).Pairwise (· ≤ ·) := by
    rw [List.pairwise_map]
    have : Std.Total (fun a b : ℕ × Q => a.1 ≤ b.1) := ⟨fun a b => le_total a.1 b.1⟩
    have : IsTrans (ℕ × Q) (fun a b => a.1 ≤ b.1) := ⟨fun a b c h1 h2 => le_trans h1 h2⟩
    exact List.pairwise_insertionSort (fun a b : ℕ × Q => a.1 ≤ b.1) reports
  have hrange : sorted.map Prod.fst = List.range size := by
    refine List.Perm.eq_of_pairwise (le := (· ≤ ·)) (fun a b _ _ h1 h2 => le_antisymm h1 h2) hpw ?_
      ((hperm.map Prod.fst).trans hidx)
    exact List.pairwise_le_range
  have hlen' : sorted.length = size := by rw [hperm.length_eq, hlen]
  have hat : ∀ (j : ℕ) (x : ℕ × Q), sorted[j]? = some x → x.1 = j := by
    intro j x hx
    have h1 : (sorted.map Prod.fst)[j]? = some x.1 := by rw [List.getElem?_map, hx]; rfl
    rw [hrange] at h1
    have hj : j < size := by
      by_contra hc; rw [List.getElem?_eq_none (by rw [hlen']; omega)] at hx; cases hx
    simp [hj] at h1
    exact h1.symm
  have hne : sorted.map Prod.snd ≠ [] := by
    intro h
    have := congrArg List.length h
    simp at this
    rw [this] at hlen'; simp at hlen'; omega
  obtain ⟨i, b, h1, h2, h3⟩ := argmin_spec hne
  rw [List.getElem?_map, Option.map_eq_some_iff] at h2
  obtain ⟨x, hx, rfl⟩ := h2
  have hxi := hat i x hx
  refine ⟨i, x.2, ?_, ?_, ?_, ?_⟩
  · unfold indexBest
    rw [if_neg (not_not.2 hlen), if_pos rfl, h1]; rfl
  · by_contra hc; rw [List.getElem?_eq_none (by rw [hlen']; omega)] at hx; cases hx
  · rw [← hxi]; exact hperm.mem_iff.1 (List.mem_of_getElem? hx)
  · intro j e' hj
    obtain ⟨k, hk, hke⟩ := List.getElem_of_mem (hperm.mem_iff.2 hj)
    have hk' : sorted[k]? = some (j, e') := by rw [List.getElem?_eq_getElem hk, hke]
    have hkj := hat k _ hk'
    dsimp only at hkj
    subst hkj
    exact h3 j e' (by rw [List.getElem?_map, hk']; rfl)

/-- Fewer reports than configurations: an assertion fails; without metrics nothing is recommended. -/
theorem C46_best_none {Q : Type} [LinearOrder Q] (reports : List (ℕ × Q)) (size : ℕ) :
    (reports.length ≠ size → ∀ b, indexBest reports size b = .error .assertionError) ∧
    (reports.length = size → indexBest reports size false = .ok none) := by
  unfold indexBest
  exact ⟨fun h b => by rw [if_pos h], fun h => by rw [if_neg (not_not.2 h)]; rfl⟩

example : indexBest [(2, (3 : ℚ)), (0, 5), (1, 3)] 3 true = .ok (some 1) ∧
    ([((2 : ℕ), (3 : ℚ)), (0, 5), (1, 3)].map Prod.fst).Perm (List.range 3) := by
  refine ⟨by rfl, by decide +kernel⟩

end PDP.Analysis.Tuning
