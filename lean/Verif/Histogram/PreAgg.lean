import Verif.Histogram.Props
import Mathlib.Algebra.BigOperators.Ring.List
import Mathlib.Algebra.Order.Floor.Ring
import Mathlib.Data.Rat.Floor

/-! # Property C36: histograms of pre-aggregated data -/

set_option linter.unusedSectionVars false
set_option linter.unusedVariables false

namespace PDP.Histogram

variable {P K : Type} [DecidableEq P] [DecidableEq K]

/-- Sum of the values of an id in a partition. -/
def sumOfPair (rows : List (P × K × ℚ)) (pk : P × K) : ℚ :=
  ((rows.filter fun r => r.1 = pk.1 ∧ r.2.1 = pk.2).map fun r => r.2.2).sum

/-! ### What `preaggregate` computes -/

theorem valuesOf_id (rows : List (P × K × ℚ)) (p : P) :
    valuesOf p (rows.map fun r => (r.1, (r.2.1, r.2.2))) = (rows.filter fun r => r.1 = p).map fun r => r.2 := by
  unfold valuesOf
  rw [List.filter_map, List.map_map]
  rfl

theorem valuesOf_pair (rows : List (P × K × ℚ)) (p : P) (k : K) :
    valuesOf k ((rows.filter fun r => r.1 = p).map fun r => r.2)
      = (rows.filter fun r => r.1 = p ∧ r.2.1 = k).map fun r => r.2.2 := by
  unfold valuesOf
  rw [List.filter_map, List.map_map, List.filter_filter]
  congr 1
  apply List.filter_congr
  intro r _
  simp [Bool.and_comm]

/-- The pre-aggregated row of a pair. -/
def preRow (rows : List (P × K × ℚ)) (pk : P × K) : PreRow :=
  ⟨rowsOfPair rows pk, sumOfPair rows pk, partitionsOfId rows pk.1, rowsOfId rows pk.1⟩

theorem preaggregate_perm (O : Ops) (hO : O.Lawful) (rows : List (P × K × ℚ)) (keep : K → Bool) :
    (preaggregate O keep rows).Perm (((allPairs rows).filter fun pk => keep pk.2).map fun pk => (pk.2, preRow rows pk)) := by
  set col := rows.map fun r => (r.1, (r.2.1, r.2.2)) with hcol
  have hg := hO.group col
  set g := O.group col with hgdef
  set un := (g.map fun e => (e.1, dictGroup e.2)).flatMap fun e =>
    (e.2.filter fun x => keep x.1).map fun x =>
      ((e.1, x.1), (⟨x.2.length, x.2.sum, e.2.length, (e.2.map fun y => y.2.length).sum⟩ : PreRow)) with hun
  have hkey : un.map Prod.fst = g.flatMap fun e => (((dictGroup e.2).filter fun x => keep x.1).map fun x => (e.1, x.1)) := by
    rw [hun, List.flatMap_map, List.map_flatMap]
    simp only [List.map_map]
    rfl
  have memg : ∀ e ∈ g, ∀ k, k ∈ (dictGroup e.2).map Prod.fst ↔ ∃ r ∈ rows, r.1 = e.1 ∧ r.2.1 = k := by
    intro e he k
    rw [dictGroup_keys, ((hg.values e he).map Prod.fst).mem_iff, hcol, valuesOf_id]
    simp only [List.map_map, List.mem_map, List.mem_filter, decide_eq_true_eq, Function.comp]
    constructor
    · rintro ⟨r, ⟨h1, h2⟩, rfl⟩; exact ⟨r, h1, h2, rfl⟩
    · rintro ⟨r, h1, h2, rfl⟩; exact ⟨r, ⟨h1, h2⟩, rfl⟩
  have main : un.Perm (((allPairs rows).filter fun pk => keep pk.2).map fun pk => (pk, preRow rows pk)) := by
    refine perm_of_keys ?_ ?_ ?_ (preRow rows) ?_ ?_
    · rw [hkey, List.nodup_flatMap]
      constructor
      · intro e he
        have h1 := ((dictGroup_nodup e.2).of_map).filter (fun x => keep x.1)
        refine List.Nodup.map_on ?_ h1
        intro x hx y hy hxy
        have h2 : x.1 = y.1 := by simpa using hxy
        exact List.inj_on_of_nodup_map (dictGroup_nodup e.2) (List.mem_filter.mp hx).1 (List.mem_filter.mp hy).1 h2
      · have hn := hg.nodup
        rw [List.Nodup, List.pairwise_map] at hn
        refine hn.imp ?_
        intro a b hab
        simp only [Function.onFun, List.disjoint_left, List.mem_map]
        rintro x ⟨y, -, rfl⟩ ⟨z, -, hz⟩
        simp only [Prod.mk.injEq] at hz
        exact hab hz.1.symm
    · rw [List.map_map]
      simp only [Function.comp_def, List.map_id']
      exact (List.nodup_dedup _).filter _
    · intro ⟨p, k⟩
      rw [hkey, List.map_map]
      simp only [Function.comp_def, List.map_id', List.mem_flatMap, List.mem_map, List.mem_filter, allPairs,
        List.mem_dedup, Prod.mk.injEq]
      constructor
      · rintro ⟨e, he, x, ⟨hx, hk⟩, rfl, rfl⟩
        obtain ⟨r, hr, h1, h2⟩ := (memg e he x.1).mp (List.mem_map.mpr ⟨x, hx, rfl⟩)
        exact ⟨⟨r, hr, h1, h2⟩, hk⟩
      · rintro ⟨⟨r, hr, rfl, rfl⟩, hk⟩
        have h1 : r.1 ∈ g.map Prod.fst := by
          rw [hg.keys, hcol, List.map_map]
          exact List.mem_map.mpr ⟨r, hr, rfl⟩
        obtain ⟨e, he, he1⟩ := List.mem_map.mp h1
        obtain ⟨x, hx, hx1⟩ := List.mem_map.mp ((memg e he r.2.1).mpr ⟨r, hr, he1.symm, rfl⟩)
        exact ⟨e, he, x, ⟨hx, by rw [hx1]; exact hk⟩, he1, hx1⟩
    · intro y hy
      rw [hun] at hy
      obtain ⟨e', he', hy'⟩ := List.mem_flatMap.mp hy
      obtain ⟨e, he, rfl⟩ := List.mem_map.mp he'
      obtain ⟨x, hx, rfl⟩ := List.mem_map.mp hy'
      have hx := (List.mem_filter.mp hx).1
      simp only [preRow, PreRow.mk.injEq]
      have hv := hg.values e he
      rw [hcol, valuesOf_id] at hv
      have hxv := dictGroup_values e.2 x hx
      have hp : (valuesOf x.1 e.2).Perm _ := valuesOf_perm (k := x.1) hv
      rw [valuesOf_pair] at hp
      refine ⟨?_, ?_, ?_, ?_⟩
      · rw [hxv, hp.length_eq]; simp [rowsOfPair]
      · rw [hxv, hp.sum_eq]; rfl
      · unfold partitionsOfId
        have : ((dictGroup e.2).map Prod.fst).Perm (((rows.filter fun r => r.1 = e.1).map fun r => r.2.1).dedup) := by
          apply perm_of_nodup (dictGroup_nodup _) (List.nodup_dedup _)
          intro k
          rw [memg e he k, List.mem_dedup]
          simp only [List.mem_map, List.mem_filter, decide_eq_true_eq]
          constructor
          · rintro ⟨r, h1, h2, rfl⟩; exact ⟨r, ⟨h1, h2⟩, rfl⟩
          · rintro ⟨r, ⟨h1, h2⟩, rfl⟩; exact ⟨r, h1, h2, rfl⟩
        rw [← this.length_eq, List.length_map]
      · have h1 := (isGrouping_dictGroup e.2).perm.length_eq
        have h2 : (ungroup (dictGroup e.2)).length = ((dictGroup e.2).map fun y => y.2.length).sum := by
          simp [ungroup, List.length_flatMap]
        rw [← h2, h1, hv.length_eq]
        simp [rowsOfId]
    · intro y hy
      obtain ⟨pk, -, rfl⟩ := List.mem_map.mp hy
      rfl
  have h2 := main.map fun e : (P × K) × PreRow => (e.1.2, e.2)
  rw [List.map_map] at h2
  exact h2

/-! ### Weighted counting -/

theorem pyRound_near (x : ℚ) (n : ℤ) (h : |x - n| < 1 / 2) : pyRound x = n := by
  obtain ⟨h1, h2⟩ := abs_lt.mp h
  unfold pyRound
  simp only
  have f1 := Int.floor_le x
  have f2 := Int.lt_floor_add_one x
  have hf : ⌊x⌋ = n ∨ ⌊x⌋ = n - 1 := by
    have a1 : (⌊x⌋ : ℚ) < (n : ℚ) + 1 := by linarith
    have a2 : (n : ℚ) - 2 < (⌊x⌋ : ℚ) := by linarith
    have b1 : ⌊x⌋ < n + 1 := by exact_mod_cast a1
    have b2 : n - 2 < ⌊x⌋ := by exact_mod_cast a2
    omega
  rcases hf with hf | hf
  · rw [hf, if_pos (by linarith)]
  · rw [hf, if_neg (by push_cast; linarith), if_pos (by push_cast; linarith)]
    ring

theorem filter_fst_dedup_length (rows : List (P × K × ℚ)) (p : P) :
    ((allPairs rows).filter fun pk => pk.1 = p).length = partitionsOfId rows p := by
  have h := distinct_fst_count rows (allPairs rows) ⟨List.nodup_dedup _, fun a => List.mem_dedup⟩ p
  rw [count_map_eq_filter] at h
  exact h

theorem sum_filter_cond {α : Type} (f : α → ℚ) (q : α → Bool) (l : List α) :
    ((l.filter q).map f).sum = (l.map fun a => if q a then f a else 0).sum := by
  induction l with
  | nil => rfl
  | cons a l ih => rw [List.filter_cons]; by_cases h : q a <;> simp [h, ih]

theorem allIds_mem_pairs (rows : List (P × K × ℚ)) (p : P) : p ∈ allIds rows ↔ ∃ pk ∈ allPairs rows, pk.1 = p := by
  simp only [allIds, allPairs, List.mem_dedup, List.mem_map]
  constructor
  · rintro ⟨r, hr, rfl⟩; exact ⟨_, ⟨r, hr, rfl⟩, rfl⟩
  · rintro ⟨pk, ⟨r, hr, rfl⟩, rfl⟩; exact ⟨r, hr, rfl⟩

/-- A sum over pairs of a function of the id is a sum over the ids, weighted with the number of partitions. -/
theorem sum_pairs (rows : List (P × K × ℚ)) (f : P → ℚ) :
    ((allPairs rows).map fun pk => f pk.1).sum = ((allIds rows).map fun p => partitionsOfId rows p * f p).sum := by
  have hn : (allIds rows).Nodup := List.nodup_dedup _
  have key : ∀ (ids : List P) (pairs : List (P × K)), ids.Nodup → (∀ pk ∈ pairs, pk.1 ∈ ids) →
      (pairs.map fun pk => f pk.1).sum = (ids.map fun p => ((pairs.filter fun pk => pk.1 = p).length : ℚ) * f p).sum := by
    intro ids pairs hids
    induction pairs with
    | nil => intro _; simp
    | cons x pairs ih =>
      intro h
      rw [List.map_cons, List.sum_cons, ih fun pk hpk => h pk (List.mem_cons_of_mem _ hpk)]
      have hx := h x List.mem_cons_self
      have h2 : (ids.map fun p => (((x :: pairs).filter fun pk => pk.1 = p).length : ℚ) * f p)
          = ids.map fun p => (if p = x.1 then f p else 0) + ((pairs.filter fun pk => pk.1 = p).length : ℚ) * f p := by
        apply List.map_congr_left
        intro p _
        rw [List.filter_cons]
        by_cases hp : x.1 = p
        · simp [hp]; ring
        · have : ¬ p = x.1 := fun h => hp h.symm
          simp [hp, this]
      rw [h2, List.sum_map_add]
      congr 1
      clear ih h h2
      induction ids with
      | nil => simp at hx
      | cons i ids ih2 =>
        rw [List.nodup_cons] at hids
        rw [List.map_cons, List.sum_cons]
        by_cases hi : i = x.1
        · have : (ids.map fun p => if p = x.1 then f p else 0).sum = 0 := by
            apply List.sum_eq_zero
            intro y hy
            obtain ⟨p, hp, rfl⟩ := List.mem_map.mp hy
            rw [if_neg]
            rintro rfl
            exact hids.1 (by rw [hi]; exact hp)
          rw [this, if_pos hi, hi]; ring
        · rw [if_neg hi, zero_add]
          apply ih2 hids.2
          rcases List.mem_cons.mp hx with h | h
          · exact absurd h.symm hi
          · exact h
  rw [key (allIds rows) (allPairs rows) hn fun pk hpk => (allIds_mem_pairs rows pk.1).mpr ⟨pk, hpk, rfl⟩]
  congr 1
  apply List.map_congr_left
  intro p _
  rw [filter_fst_dedup_length]

theorem partitionsOfId_pos (rows : List (P × K × ℚ)) (p : P) (hp : p ∈ allIds rows) : 0 < partitionsOfId rows p := by
  obtain ⟨pk, hpk, h⟩ := (allIds_mem_pairs rows p).mp hp
  rw [← filter_fst_dedup_length]
  exact List.length_pos_of_mem (List.mem_filter.mpr ⟨hpk, by simpa using h⟩)

/-- Weighted counting of a function of the id, with weights one over the number of partitions. -/
theorem weighted_spec (O : Ops) (hO : O.Lawful) (rows : List (P × K × ℚ)) (inv : ℕ → ℚ) (ε : ℚ)
    (hinv : ∀ n, 0 < n → |n * inv n - 1| ≤ ε) (hε : ε * (allIds rows).length < 1 / 2)
    (f : P → ℕ) (col : List (ℕ × ℚ))
    (hcol : col.Perm ((allPairs rows).map fun pk => (f pk.1, inv (partitionsOfId rows pk.1)))) :
    IsCountHistogram ((allIds rows).map f) (weightedHistogram O col) := by
  have hs := hO.sum col
  have hkeys : ∀ n, n ∈ (O.sumPerKey col).map Prod.fst ↔ n ∈ (allIds rows).map f := by
    intro n
    rw [hs.keys, (hcol.map Prod.fst).mem_iff, List.map_map]
    simp only [List.mem_map, Function.comp]
    constructor
    · rintro ⟨pk, hpk, rfl⟩; exact ⟨pk.1, (allIds_mem_pairs rows pk.1).mpr ⟨pk, hpk, rfl⟩, rfl⟩
    · rintro ⟨p, hp, rfl⟩
      obtain ⟨pk, hpk, h⟩ := (allIds_mem_pairs rows p).mp hp
      exact ⟨pk, hpk, by rw [h]⟩
  have hval : ∀ e ∈ O.sumPerKey col, (pyRound e.2).toNat = ((allIds rows).map f).count e.1 := by
    intro e he
    have h1 : e.2 = ((allIds rows).map fun p => if f p = e.1 then partitionsOfId rows p * inv (partitionsOfId rows p) else 0).sum := by
      rw [hs.values e he, (valuesOf_perm (k := e.1) hcol).sum_eq]
      unfold valuesOf
      rw [List.filter_map, List.map_map]
      have : (fun p : P => if f p = e.1 then (partitionsOfId rows p : ℚ) * inv (partitionsOfId rows p) else 0)
          = fun p => (partitionsOfId rows p : ℚ) * (if f p = e.1 then inv (partitionsOfId rows p) else 0) := by
        funext p; split <;> simp
      rw [this, ← sum_pairs rows fun p => if f p = e.1 then inv (partitionsOfId rows p) else 0]
      have h5 := sum_filter_cond (fun pk : P × K => inv (partitionsOfId rows pk.1)) (fun pk => decide (f pk.1 = e.1)) (allPairs rows)
      simp only [decide_eq_true_eq] at h5
      exact h5
    rw [pyRound_near e.2 (((allIds rows).map f).count e.1 : ℕ)]
    · simp
    · rw [count_map_eq_filter]
      have h2 : (((allIds rows).filter fun a => f a = e.1).length : ℚ) = ((allIds rows).map fun p => if f p = e.1 then (1 : ℚ) else 0).sum := by
        have := sum_filter_cond (fun _ : P => (1 : ℚ)) (fun p => decide (f p = e.1)) (allIds rows)
        simp only [List.map_const', List.sum_replicate, nsmul_eq_mul, mul_one, decide_eq_true_eq] at this
        exact this
      rw [Int.cast_natCast, h2, h1]
      have key : ∀ ids : List P, (∀ p ∈ ids, 0 < partitionsOfId rows p) →
          |(ids.map fun p => if f p = e.1 then (partitionsOfId rows p : ℚ) * inv (partitionsOfId rows p) else 0).sum
            - (ids.map fun p => if f p = e.1 then (1 : ℚ) else 0).sum| ≤ ε * ids.length := by
        intro ids
        induction ids with
        | nil => intro _; simp
        | cons p ids ih =>
          intro hp
          have h3 := ih fun q hq => hp q (List.mem_cons_of_mem _ hq)
          have h4 := hinv _ (hp p List.mem_cons_self)
          simp only [List.map_cons, List.sum_cons, List.length_cons]
          push_cast
          have h0 : 0 ≤ ε := le_trans (abs_nonneg _) h4
          rw [abs_le] at h3 h4 ⊢
          split <;> constructor <;> linarith [h3.1, h3.2, h4.1, h4.2]
      exact lt_of_le_of_lt (key _ fun p hp => partitionsOfId_pos rows p hp) hε
  have hcount : IsCount ((allIds rows).map f) ((O.sumPerKey col).map fun e => (e.1, (pyRound e.2).toNat)) := by
    refine ⟨?_, ?_, ?_⟩
    · rw [List.map_map]; exact hs.nodup
    · intro a; rw [List.map_map]; exact hkeys a
    · intro e he
      obtain ⟨x, hx, rfl⟩ := List.mem_map.mp he
      exact hval x hx
  exact (frequencyHelper_spec O hO _ fun e he => (hcount.pos e he).ne').perm hcount.expand

/-! ### C36 -/

/-- **C36.** For every dataset, the count histograms computed from the output of `preaggregate` describe the raw
rows.  `inv` is the rounded reciprocal used as weight: any error that is small against the number of ids is
corrected by the rounding of the weighted counts. -/
theorem C36_preaggregated_histograms (O O' : Ops) (hO : O.Lawful) (hO' : O'.Lawful) (rows : List (P × K × ℚ))
    (inv : ℕ → ℚ) (ε : ℚ) (hinv : ∀ n, 0 < n → |n * inv n - 1| ≤ ε) (hε : ε * (allIds rows).length < 1 / 2) :
    DescribesCounts rows (preHistograms O inv (preaggregate O' (fun _ => true) rows)) := by
  have hp := preaggregate_perm O' hO' rows (fun _ => true)
  rw [List.filter_true] at hp
  set pre := preaggregate O' (fun _ => true) rows with hpre
  unfold preHistograms
  refine ⟨?_, ?_, ?_, ?_, ?_⟩
  · refine weighted_spec O hO rows inv ε hinv hε (partitionsOfId rows) _ ?_
    have := hp.map fun e => (e.2.nPartitions, inv e.2.nPartitions)
    rwa [List.map_map] at this
  · refine weighted_spec O hO rows inv ε hinv hε (rowsOfId rows) _ ?_
    have := hp.map fun e => (e.2.nContributions, inv e.2.nPartitions)
    rwa [List.map_map] at this
  · have := hp.map fun e => e.2.count
    rw [List.map_map] at this
    exact (frequencyHistogram_spec O hO _).perm this
  · refine (frequencyHistogram_spec O hO _).perm ?_
    set col := pre.map fun e => (e.1, (e.2.count : ℚ)) with hcol
    have hcp : col.Perm ((allPairs rows).map fun pk => (pk.2, (rowsOfPair rows pk : ℚ))) := by
      have := hp.map fun e => (e.1, (e.2.count : ℚ))
      rwa [List.map_map] at this
    have hs := hO.sum col
    have : (O.sumPerKey col).Perm ((allPartitions rows).map fun k => (k, (rowsOfPartition rows k : ℚ))) := by
      refine perm_of_keys hs.nodup ?_ ?_ (fun k => (rowsOfPartition rows k : ℚ)) ?_ ?_
      · rw [List.map_map]
        simp only [Function.comp_def, List.map_id']
        exact List.nodup_dedup _
      · intro k
        rw [hs.keys, (hcp.map Prod.fst).mem_iff, List.map_map, List.map_map]
        simp only [Function.comp_def, List.map_id', List.mem_map, allPairs, allPartitions, List.mem_dedup]
        constructor
        · rintro ⟨pk, ⟨r, hr, rfl⟩, rfl⟩; exact ⟨r, hr, rfl⟩
        · rintro ⟨r, hr, rfl⟩; exact ⟨_, ⟨r, hr, rfl⟩, rfl⟩
      · intro e he
        rw [hs.values e he, (valuesOf_perm (k := e.1) hcp).sum_eq]
        unfold valuesOf
        rw [List.filter_map, List.map_map]
        -- the rows of a partition are split among its pairs
        have key : ∀ (pairs : List (P × K)) (rs : List (P × K × ℚ)), pairs.Nodup →
            (∀ r ∈ rs, (r.1, r.2.1) ∈ pairs) →
            ((pairs.filter fun pk => pk.2 = e.1).map fun pk => (rowsOfPair rs pk : ℚ)).sum = rowsOfPartition rs e.1 := by
          intro pairs rs hn
          induction rs with
          | nil => intro _; simp [rowsOfPair, rowsOfPartition]
          | cons r rs ih =>
            intro hmem
            have ih' := ih fun q hq => hmem q (List.mem_cons_of_mem _ hq)
            have hr := hmem r List.mem_cons_self
            have h1 : ∀ pk : P × K, ((rowsOfPair (r :: rs) pk : ℕ) : ℚ) = (if pk = (r.1, r.2.1) then 1 else 0) + (rowsOfPair rs pk : ℚ) := by
              intro pk
              unfold rowsOfPair
              rw [List.filter_cons]
              by_cases h : r.1 = pk.1 ∧ r.2.1 = pk.2
              · have : pk = (r.1, r.2.1) := Prod.ext h.1.symm h.2.symm
                rw [if_pos this, if_pos (by simpa using h), List.length_cons]
                push_cast; ring
              · have : ¬ pk = (r.1, r.2.1) := fun hh => h (by rw [hh]; exact ⟨rfl, rfl⟩)
                simp [h, this]
            simp only [h1]
            rw [List.sum_map_add, ih']
            have h2 : ((rowsOfPartition (r :: rs) e.1 : ℕ) : ℚ) = (if r.2.1 = e.1 then 1 else 0) + (rowsOfPartition rs e.1 : ℚ) := by
              unfold rowsOfPartition
              rw [List.filter_cons]
              by_cases h : r.2.1 = e.1
              · simp [h]; ring
              · simp [h]
            rw [h2]
            congr 1
            have h3 : ((pairs.filter fun pk => pk.2 = e.1).map fun pk => if pk = (r.1, r.2.1) then (1 : ℚ) else 0).sum
                = (((pairs.filter fun pk => pk.2 = e.1).count (r.1, r.2.1) : ℕ) : ℚ) := by
              generalize (pairs.filter fun pk => pk.2 = e.1) = l
              induction l with
              | nil => simp
              | cons x l ih3 =>
                rw [List.map_cons, List.sum_cons, ih3, List.count_cons]
                by_cases h : x = (r.1, r.2.1)
                · simp [h]; ring
                · simp [h]
            rw [h3]
            by_cases h : r.2.1 = e.1
            · rw [if_pos h, List.count_eq_one_of_mem (hn.filter _) (List.mem_filter.mpr ⟨hr, by simpa using h⟩)]
              simp
            · rw [if_neg h, List.count_eq_zero_of_not_mem]
              · simp
              · intro hm
                exact h (by simpa using (List.mem_filter.mp hm).2)
        exact key (allPairs rows) rows (List.nodup_dedup _) fun r hr => List.mem_dedup.mpr (List.mem_map.mpr ⟨r, hr, rfl⟩)
      · intro e he
        obtain ⟨k, -, rfl⟩ := List.mem_map.mp he
        rfl
    have h2 := this.map fun e => ⌊e.2⌋.toNat
    rw [List.map_map] at h2
    simpa [Function.comp_def] using h2
  · refine count_histogram O hO _ _ _ ?_ (List.nodup_dedup _) ?_
    · intro k
      rw [(hp.map Prod.fst).mem_iff, List.map_map]
      simp only [Function.comp_def, List.mem_map, allPairs, allPartitions, List.mem_dedup]
      constructor
      · rintro ⟨pk, ⟨r, hr, rfl⟩, rfl⟩; exact ⟨r, hr, rfl⟩
      · rintro ⟨r, hr, rfl⟩; exact ⟨_, ⟨r, hr, rfl⟩, rfl⟩
    · intro k _
      rw [(hp.map Prod.fst).count_eq, List.map_map]
      exact distinct_snd_count rows (allPairs rows) ⟨List.nodup_dedup _, fun a => List.mem_dedup⟩ k

/-- **C36.** The count histograms of the pre-aggregated data are equal to those of the raw data, on any two
backends. -/
theorem C36_preaggregated_equals_raw (O O' O'' : Ops) (hO : O.Lawful) (hO' : O'.Lawful) (hO'' : O''.Lawful)
    (rows : List (P × K × ℚ)) (inv : ℕ → ℚ) (ε : ℚ) (hinv : ∀ n, 0 < n → |n * inv n - 1| ≤ ε)
    (hε : ε * (allIds rows).length < 1 / 2) :
    preHistograms O inv (preaggregate O' (fun _ => true) rows) = datasetHistograms O'' rows :=
  (C36_preaggregated_histograms O O' hO hO' rows inv ε hinv hε).unique (C33_dataset_histograms O'' hO'' rows)

/-- With exact reciprocals there is no restriction on the number of ids. -/
theorem C36_exact_reciprocals (O O' O'' : Ops) (hO : O.Lawful) (hO' : O'.Lawful) (hO'' : O''.Lawful)
    (rows : List (P × K × ℚ)) :
    preHistograms O (fun n => 1 / n) (preaggregate O' (fun _ => true) rows) = datasetHistograms O'' rows := by
  refine C36_preaggregated_equals_raw O O' O'' hO hO' hO'' rows _ 0 ?_ (by norm_num)
  intro n hn
  have : (n : ℚ) ≠ 0 := by positivity
  rw [mul_one_div_cancel this]; simp

/-- **C36.** What pre-aggregation releases: one row per pair in a kept partition, with the number of rows and sum
of the pair, and the number of partitions and rows of the id counted before the sampling of partitions. -/
theorem C36_preaggregate (O : Ops) (hO : O.Lawful) (rows : List (P × K × ℚ)) (keep : K → Bool) :
    (preaggregate O keep rows).Perm (((allPairs rows).filter fun pk => keep pk.2).map fun pk =>
      (pk.2, ⟨rowsOfPair rows pk, sumOfPair rows pk, partitionsOfId rows pk.1, rowsOfId rows pk.1⟩)) :=
  preaggregate_perm O hO rows keep

/-- Reciprocals with an error of 1 % and 3 ids in 2 partitions meet the conditions. -/
example : let rows : List (ℕ × ℕ × ℚ) := [(1, 10, 2), (1, 11, 3), (1, 11, 1), (2, 10, 5), (3, 11, 1)]
    (∀ n : ℕ, 0 < n → |(n : ℚ) * (101 / 100 / n) - 1| ≤ 1 / 100) ∧ (1 / 100 : ℚ) * (allIds rows).length < 1 / 2 ∧
    (datasetHistograms localOps rows).l0 = [⟨1, 2, 2, 2, 1, 1⟩, ⟨2, 3, 1, 2, 2, 2⟩] := by
  refine ⟨?_, ?_, ?_⟩
  · intro n hn
    have : (n : ℚ) ≠ 0 := by positivity
    have h1 : (n : ℚ) * (101 / 100 / n) - 1 = 1 / 100 := by field_simp; norm_num
    rw [h1, abs_of_pos (by norm_num)]
  · decide +kernel
  · have h1 : toFrequencyBin (1, 2) = (1, ⟨1, 2, 2, 2, 1, 1⟩) := by simp [toFrequencyBin, binBounds, growBound]
    have h2 : toFrequencyBin (2, 1) = (2, ⟨2, 3, 1, 2, 2, 2⟩) := by simp [toFrequencyBin, binBounds, growBound]
    have e : (localOps.countPerElement ((localOps.countPerElement ((localOps.distinct
      ([(1, 10), (1, 11), (1, 11), (2, 10), (3, 11)] : List (ℕ × ℕ))).map Prod.fst)).map Prod.snd)) = [(2, 1), (1, 2)] := by
      decide +kernel
    show toHistogram localOps (List.map toFrequencyBin (localOps.countPerElement ((localOps.countPerElement ((localOps.distinct
      ([(1, 10), (1, 11), (1, 11), (2, 10), (3, 11)] : List (ℕ × ℕ))).map Prod.fst)).map Prod.snd))) = _
    rw [e]
    simp only [List.map_cons, List.map_nil, h1, h2]
    decide +kernel

end PDP.Histogram
