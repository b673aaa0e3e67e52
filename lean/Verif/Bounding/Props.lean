import Verif.Bounding.Lemmas
import Mathlib.Tactic.Set

/-!
# Properties C08–C13: what contribution bounding keeps

`B` is any backend that meets the contract `Backend.Lawful` (any random outcome); `agg` is the
function the bounder applies to the values of one `(id, partition)` pair.  Every theorem exhibits the
list `kept` of the input rows that reach `agg`.
-/

set_option linter.unusedSectionVars false

namespace PDP

variable {P K V A : Type} [DecidableEq P] [DecidableEq K]

/-- `LocalBackend` satisfies the contract whatever the random generator returns. -/
theorem C39_local_backend_lawful (rng : Rng) : (localBackend rng).Lawful where
  group col := isGrouping_dictGroup col
  sample stage col n _ := isSampling_localSample _ stage col n
  choose stage k l n _ := chooseFromList_spec _ stage k l n

theorem localBackend_keyLocal (rng : Rng) : (localBackend rng).KeyLocal where
  group S col := dictGroup_filter S col
  sample S stage col n := by
    simp only [localBackend, localSample, dictGroup_filter, List.filter_map]
    rfl

/-- A generator that always takes the first `n` indices (non-vacuity of `Rng`). -/
def firstRng : Rng where
  pick _ _ len n := List.range (min n len)
  nodup _ _ _ _ := List.nodup_range
  lt _ _ len n i hi := by have := List.mem_range.mp hi; omega
  length _ _ len n h := by simp; omega

/-- A generator that takes the last `n` indices, in reverse order. -/
def lastRng : Rng where
  pick _ _ len n := (List.range (min n len)).map fun i => len - 1 - i
  nodup _ _ len n := by
    apply List.nodup_range.map_on
    intro a ha b hb h
    have h1 := List.mem_range.mp ha; have h2 := List.mem_range.mp hb; omega
  lt _ _ len n i hi := by
    obtain ⟨j, hj, rfl⟩ := List.mem_map.mp hi
    have := List.mem_range.mp hj; omega
  length _ _ len n h := by simp; omega

/-- Two privacy ids, three partitions, for the examples. -/
def sampleRows : List (ℕ × ℕ × ℕ) :=
  [(1, 10, 5), (1, 10, 6), (2, 10, 7), (1, 20, 8), (1, 30, 9), (1, 10, 4), (2, 20, 3)]

/-! ## cross and per partition bounding -/

theorem crossAndPer_kept (B : Backend) (hB : B.Lawful) (l0 linf : ℕ) (h0 : 1 ≤ l0) (hi : 1 ≤ linf)
    (agg : List V → A) (col : List (P × K × V)) :
    ∃ kept : List ((P × K) × List V),
      boundCrossAndPer B l0 linf agg col = kept.map (fun e => (e.1, agg e.2)) ∧
      KeptFrom col kept ∧
      (∀ e ∈ kept, e.2.length = min linf (cell e.1.1 e.1.2 col).length) ∧
      (∀ p, (kept.filter fun e => e.1.1 = p).length = min l0 (partitionsOf p col).length) := by
  have hs := hB.sample "Sample per (privacy_id, partition_key)" (byPair col) linf hi
  set c2 := B.sampleFixedPerKey "Sample per (privacy_id, partition_key)" (byPair col) linf with hc2
  set c4 : List (P × (K × List V)) := c2.map fun e => (e.1.1, (e.1.2, e.2)) with hc4
  have hs2 := hB.sample "Sample per privacy_id"
    (c4.map fun e => (e.1, (fun x : K × List V => (x.1, agg x.2)) e.2)) l0 h0
  obtain ⟨c5, h5, h5eq⟩ := lift_sampling (fun x : K × List V => (x.1, agg x.2)) hs2
  have hvals : ∀ p x, x ∈ valuesOf p c4 → ((p, x.1), x.2) ∈ c2 := by
    intro p x hx
    rw [mem_valuesOf, hc4] at hx
    obtain ⟨e, he, heq⟩ := List.mem_map.mp hx
    simp only [Prod.mk.injEq] at heq
    obtain ⟨h1, h2⟩ := heq
    subst h1 h2
    exact he
  have hnd4 : ∀ p, ((valuesOf p c4).map Prod.fst).Nodup := by
    intro p
    have h1 : ((c2.filter fun e => e.1.1 = p).map Prod.fst).Nodup :=
      hs.nodup.sublist (List.filter_sublist.map _)
    have h2 : (valuesOf p c4).map Prod.fst = ((c2.filter fun e => e.1.1 = p).map Prod.fst).map Prod.snd := by
      simp [valuesOf, hc4, List.filter_map, Function.comp_def]
    rw [h2]
    apply h1.map_on
    rintro ⟨a1, a2⟩ ha ⟨b1, b2⟩ hb hab
    simp only [List.mem_map, List.mem_filter, decide_eq_true_eq] at ha hb
    obtain ⟨x, ⟨-, hx⟩, hx2⟩ := ha
    obtain ⟨y, ⟨-, hy⟩, hy2⟩ := hb
    rw [hx2] at hx; rw [hy2] at hy
    simp only at hx hy hab
    rw [hx, hy, hab]
  have hperm4 : ∀ p, ((valuesOf p c4).map Prod.fst).Perm (partitionsOf p col) := by
    intro p
    rw [List.perm_ext_iff_of_nodup (hnd4 p) (partitionsOf_nodup p col)]
    intro k
    rw [mem_partitionsOf, ← hs.keys (p, k)]
    constructor
    · intro h
      obtain ⟨x, hx, rfl⟩ := List.mem_map.mp h
      exact List.mem_map.mpr ⟨_, hvals p x hx, rfl⟩
    · intro h
      obtain ⟨e, he, heq⟩ := List.mem_map.mp h
      refine List.mem_map.mpr ⟨(e.1.2, e.2), ?_, by rw [heq]⟩
      rw [mem_valuesOf, hc4]
      exact List.mem_map.mpr ⟨e, he, by rw [heq]⟩
  have hmem : ∀ y ∈ nest c5, y ∈ c2 := by
    intro y hy
    obtain ⟨l, hl, hx⟩ := mem_nest.mp hy
    have := (h5.values _ hl).subset hx
    exact hvals _ _ this
  refine ⟨nest c5, ?_, keptFrom_of ?_ ?_ ?_, ?_, ?_⟩
  · have : boundCrossAndPer B l0 linf agg col
        = nest (B.sampleFixedPerKey "Sample per privacy_id"
            (c4.map fun e => (e.1, (fun x : K × List V => (x.1, agg x.2)) e.2)) l0) := by
      simp only [boundCrossAndPer, nest, hc4, hc2, byPair, List.map_map]; rfl
    rw [this, h5eq, ← nest_map]
  · apply nest_keys_nodup h5.nodup
    intro e he
    obtain ⟨m, hp, hsl⟩ := h5.values e he
    have : (m.map Prod.fst).Nodup := (hnd4 e.1).sublist (hsl.map _)
    exact (hp.map Prod.fst).nodup_iff.mp this
  · intro e he hnil
    have h1 := hmem e he
    have h2 := hs.length e h1
    have h3 : e.1 ∈ (byPair col).map Prod.fst := (hs.keys e.1).mp (List.mem_map_of_mem h1)
    have h4 := valuesOf_ne_nil.mpr h3
    have h5 := List.length_pos_iff.mpr h4
    rw [hnil] at h2; simp at h2; omega
  · intro e he
    have := hs.values e (hmem e he)
    rw [← valuesOf_byPair]; exact this
  · intro e he
    have := hs.length e (hmem e he)
    rw [← valuesOf_byPair]; exact this
  · intro p
    by_cases hp : p ∈ c5.map Prod.fst
    · obtain ⟨e, he, rfl⟩ := List.mem_map.mp hp
      rw [nest_filter h5.nodup he, List.length_map, h5.length e he, ← (hperm4 e.1).length_eq, List.length_map]
    · rw [nest_filter_of_not_mem hp]
      have h1 : valuesOf p c4 = [] := by
        by_contra h
        exact hp ((h5.keys p).mpr (valuesOf_ne_nil.mp h))
      rw [← (hperm4 p).length_eq, h1]; simp

/-- **C08.** After cross- and per-partition bounding: the rows that reach the aggregation are input
rows (none twice), each privacy id is in exactly `min l0 n` partitions where `n` is the number of
its partitions, and in each one has exactly `min linf m` of its `m` values. -/
theorem C08_cross_and_per_partition_bounded (B : Backend) (hB : B.Lawful) (l0 linf : ℕ) (h0 : 1 ≤ l0)
    (hi : 1 ≤ linf) (agg : List V → A) (col : List (P × K × V)) :
    ∃ kept : List ((P × K) × List V),
      boundCrossAndPer B l0 linf agg col = kept.map (fun e => (e.1, agg e.2)) ∧
      KeptFrom col kept ∧
      (∀ e ∈ kept, e.2.length = min linf (cell e.1.1 e.1.2 col).length) ∧
      (∀ p, (kept.filter fun e => e.1.1 = p).length = min l0 (partitionsOf p col).length) :=
  crossAndPer_kept B hB l0 linf h0 hi agg col

/-- The guarantee used by the noise calibration: at most `l0` entries per id, each aggregated from at
most `linf` values of the input. -/
theorem C08_output_per_id_bounded (B : Backend) (hB : B.Lawful) (l0 linf : ℕ) (h0 : 1 ≤ l0)
    (hi : 1 ≤ linf) (agg : List V → A) (col : List (P × K × V)) :
    ((boundCrossAndPer B l0 linf agg col).map Prod.fst).Nodup ∧
    (∀ p, ((boundCrossAndPer B l0 linf agg col).filter fun e => e.1.1 = p).length ≤ l0) ∧
    (∀ e ∈ boundCrossAndPer B l0 linf agg col, ∃ vs : List V, vs ≠ [] ∧ vs.length ≤ linf ∧
      vs.Subperm (cell e.1.1 e.1.2 col) ∧ e.2 = agg vs) := by
  obtain ⟨kept, h1, h2, h3, h4⟩ := crossAndPer_kept B hB l0 linf h0 hi agg col
  rw [h1]
  refine ⟨?_, fun p => ?_, ?_⟩
  · simpa [Function.comp_def] using h2.once
  · have := h4 p
    rw [List.filter_map, List.length_map]
    simp only [Function.comp_def]
    omega
  · intro e he
    obtain ⟨x, hx, rfl⟩ := List.mem_map.mp he
    exact ⟨x.2, h2.nonempty x hx, by have := h3 x hx; omega, h2.fromInput x hx, rfl⟩

example : boundCrossAndPer (localBackend firstRng) 2 2 List.sum sampleRows
    = [((1, 10), 11), ((1, 20), 8), ((2, 10), 7), ((2, 20), 3)] := by decide +kernel
example : boundCrossAndPer (localBackend lastRng) 2 2 List.sum sampleRows
    = [((1, 30), 9), ((1, 20), 8), ((2, 10), 7), ((2, 20), 3)] := by decide +kernel

/-! ## per-id bounding -/

theorem nest_collect_rows (g : List (P × List (K × V))) (hn : (g.map Prod.fst).Nodup) :
    ((nest (collectPerPartition g)).map Prod.fst).Nodup ∧
    (∀ e ∈ nest (collectPerPartition g), e.2 ≠ [] ∧ e.2 = valuesOf e.1.2 (valuesOf e.1.1 (ungroup g))) := by
  constructor
  · apply nest_keys_nodup
    · simpa [collectPerPartition, Function.comp_def] using hn
    · intro e he
      obtain ⟨x, -, rfl⟩ := List.mem_map.mp he
      exact dictGroup_nodup x.2
  · intro e he
    obtain ⟨l, hl, hx⟩ := mem_nest.mp he
    obtain ⟨x, hxg, heq⟩ := List.mem_map.mp hl
    simp only [Prod.mk.injEq] at heq
    obtain ⟨h1, rfl⟩ := heq
    rw [← h1, valuesOf_ungroup hn hxg]
    have h2 := dictGroup_values x.2 _ hx
    have h3 : e.1.2 ∈ x.2.map Prod.fst := (dictGroup_keys x.2 e.1.2).mp (List.mem_map.mpr ⟨_, hx, rfl⟩)
    simp only at h2
    exact ⟨h2 ▸ valuesOf_ne_nil.mpr h3, h2⟩

theorem cell_nest_collect (g : List (P × List (K × V))) (hn : (g.map Prod.fst).Nodup) (p : P) (k : K) :
    cell p k (rowsBehind (nest (collectPerPartition g))) = valuesOf k (valuesOf p (ungroup g)) := by
  obtain ⟨h1, h2⟩ := nest_collect_rows g hn
  by_cases hk : (p, k) ∈ (nest (collectPerPartition g)).map Prod.fst
  · obtain ⟨e, he, heq⟩ := List.mem_map.mp hk
    have h3 := cell_rowsBehind h1 he
    rw [heq] at h3
    rw [h3, (h2 e he).2, heq]
  · rw [cell_rowsBehind_of_not_mem hk]
    symm
    by_contra h
    have hk1 := valuesOf_ne_nil.mp h
    have hp : p ∈ g.map Prod.fst := by
      by_contra hp
      rw [valuesOf_ungroup_of_not_mem hp] at hk1; simp at hk1
    obtain ⟨e, he, rfl⟩ := List.mem_map.mp hp
    rw [valuesOf_ungroup hn he] at hk1
    obtain ⟨x, hx, hx2⟩ := List.mem_map.mp ((dictGroup_keys e.2 k).mpr hk1)
    apply hk
    refine List.mem_map.mpr ⟨((e.1, k), x.2), mem_nest.mpr ⟨dictGroup e.2, List.mem_map.mpr ⟨e, he, rfl⟩, ?_⟩, rfl⟩
    rw [← hx2]; exact hx

theorem rows_nest_collect (g : List (P × List (K × V))) (hn : (g.map Prod.fst).Nodup) :
    (rowsBehind (nest (collectPerPartition g))).Perm (ungroup g) := by
  apply perm_of_cell
  intro p k
  rw [cell_nest_collect g hn, valuesOf_valuesOf]

theorem perId_kept (B : Backend) (hB : B.Lawful) (m : ℕ) (hm : 1 ≤ m) (agg : List V → A)
    (col : List (P × K × V)) :
    ∃ kept : List ((P × K) × List V),
      boundPerId B m agg col = kept.map (fun e => (e.1, agg e.2)) ∧
      KeptFrom col kept ∧
      (∀ p, ((rowsBehind kept).filter fun r => r.1 = p).length
        = min m (col.filter fun r => r.1 = p).length) := by
  have hs := hB.sample "Sample per privacy_id" col m hm
  set g := B.sampleFixedPerKey "Sample per privacy_id" col m with hg
  obtain ⟨h1, h2⟩ := nest_collect_rows g hs.nodup
  have hsub := hs.subperm
  refine ⟨nest (collectPerPartition g), ?_, keptFrom_of h1 (fun e he => (h2 e he).1) ?_, ?_⟩
  · have : (col.map fun r => (r.1, (r.2.1, r.2.2))) = col := by simp
    simp only [boundPerId, nest, this, ← hg]
  · intro e he
    rw [(h2 e he).2, valuesOf_valuesOf]
    obtain ⟨c, hp, hsl⟩ := hsub
    exact ⟨_, (hp.filter _).map _, (hsl.filter _).map _⟩
  · intro p
    have hp := ((rows_nest_collect g hs.nodup).filter (fun r => decide (r.1 = p))).length_eq
    rw [hp]
    have e1 : ((ungroup g).filter fun r => decide (r.1 = p)).length = (valuesOf p (ungroup g)).length := by
      simp [valuesOf]
    have e2 : (col.filter fun r => decide (r.1 = p)).length = (valuesOf p col).length := by simp [valuesOf]
    rw [e1, e2]
    by_cases hk : p ∈ g.map Prod.fst
    · obtain ⟨e, he, rfl⟩ := List.mem_map.mp hk
      rw [valuesOf_ungroup hs.nodup he, hs.length e he]
    · rw [valuesOf_ungroup_of_not_mem hk]
      have : valuesOf p col = [] := by
        by_contra h; exact hk ((hs.keys p).mpr (valuesOf_ne_nil.mp h))
      rw [this]; simp

/-- **C09.** After per-id bounding exactly `min m n` of the `n` rows of each privacy id are kept,
over all partitions together. -/
theorem C09_total_contributions_bounded (B : Backend) (hB : B.Lawful) (m : ℕ) (hm : 1 ≤ m)
    (agg : List V → A) (col : List (P × K × V)) :
    ∃ kept : List ((P × K) × List V),
      boundPerId B m agg col = kept.map (fun e => (e.1, agg e.2)) ∧
      KeptFrom col kept ∧
      (∀ p, ((rowsBehind kept).filter fun r => r.1 = p).length
        = min m (col.filter fun r => r.1 = p).length) :=
  perId_kept B hB m hm agg col

example : boundPerId (localBackend firstRng) 3 List.sum sampleRows
    = [((1, 10), 11), ((1, 20), 8), ((2, 10), 7), ((2, 20), 3)] := by decide +kernel

/-! ## cross-partition bounding only -/

theorem partitions_of_group (g : List (P × List (K × V))) (col : List (P × K × V))
    (hg : IsGrouping col g) {e} (he : e ∈ g) :
    ((dictGroup e.2).map Prod.fst).Perm (partitionsOf e.1 col) := by
  rw [List.perm_ext_iff_of_nodup (dictGroup_nodup _) (partitionsOf_nodup _ _)]
  intro k
  rw [dictGroup_keys, ((hg.values e he).map Prod.fst).mem_iff]
  simp [partitionsOf, valuesOf]

theorem cross_kept (B : Backend) (hB : B.Lawful) (l0 : ℕ) (h0 : 1 ≤ l0) (agg : List V → A)
    (col : List (P × K × V)) :
    ∃ kept : List ((P × K) × List V),
      boundCross B l0 agg col = kept.map (fun e => (e.1, agg e.2)) ∧
      KeptFrom col kept ∧
      (∀ e ∈ kept, e.2.Perm (cell e.1.1 e.1.2 col)) ∧
      (∀ p, (kept.filter fun e => e.1.1 = p).length = min l0 (partitionsOf p col).length) := by
  have hgr := hB.group col
  set g := B.groupByKey col with hg
  obtain ⟨h1, h2⟩ := nest_collect_rows g hgr.nodup
  set c3 := (collectPerPartition g).map fun e => (e.1, B.choose "Sample" e.1 e.2 l0) with hc3
  have hch := fun (p : P) (l : List (K × List V)) => hB.choose "Sample" p l l0 h0
  have hfst : c3.map Prod.fst = g.map Prod.fst := by
    simp [hc3, collectPerPartition, Function.comp_def]
  have hmem : ∀ y ∈ nest c3, y ∈ nest (collectPerPartition g) := by
    intro y hy
    obtain ⟨l, hl, hx⟩ := mem_nest.mp hy
    obtain ⟨e, he, heq⟩ := List.mem_map.mp hl
    simp only [Prod.mk.injEq] at heq
    obtain ⟨e1, rfl⟩ := heq
    refine mem_nest.mpr ⟨e.2, ?_, (hch _ _).1.subset hx⟩
    rw [← e1]; exact he
  have hperm : ∀ e ∈ nest c3, e.2.Perm (cell e.1.1 e.1.2 col) := by
    intro e he
    rw [(h2 e (hmem e he)).2, ← valuesOf_valuesOf]
    exact valuesOf_perm (valuesOf_perm hgr.perm)
  refine ⟨nest c3, ?_, keptFrom_of ?_ (fun e he => (h2 e (hmem e he)).1)
    (fun e he => (hperm e he).subperm), hperm, ?_⟩
  · have : (col.map fun r => (r.1, (r.2.1, r.2.2))) = col := by simp
    simp only [boundCross, nest, this, ← hg, ← hc3]
  · apply nest_keys_nodup (hfst ▸ hgr.nodup)
    intro e he
    obtain ⟨x, hx, rfl⟩ := List.mem_map.mp he
    obtain ⟨y, hy, rfl⟩ := List.mem_map.mp hx
    obtain ⟨m, hp, hsl⟩ := (hch y.1 (dictGroup y.2)).1
    exact (hp.map Prod.fst).nodup_iff.mp ((dictGroup_nodup y.2).sublist (hsl.map _))
  · intro p
    by_cases hk : p ∈ g.map Prod.fst
    · obtain ⟨e, he, rfl⟩ := List.mem_map.mp hk
      have h3 : (e.1, B.choose "Sample" e.1 (dictGroup e.2) l0) ∈ c3 :=
        List.mem_map.mpr ⟨(e.1, dictGroup e.2), List.mem_map.mpr ⟨e, he, rfl⟩, rfl⟩
      have h4 := nest_filter (hfst ▸ hgr.nodup) h3
      simp only at h4
      rw [h4, List.length_map, (hch _ _).2, ← (partitions_of_group g col hgr he).length_eq, List.length_map]
    · rw [nest_filter_of_not_mem (hfst ▸ hk)]
      have : partitionsOf p col = [] := by
        rw [List.eq_nil_iff_forall_not_mem]
        intro k hk'
        apply hk
        rw [hgr.keys]
        rw [partitionsOf, List.mem_dedup] at hk'
        obtain ⟨r, hr, -⟩ := List.mem_map.mp hk'
        simp only [List.mem_filter, decide_eq_true_eq] at hr
        exact List.mem_map.mpr ⟨r, hr.1, hr.2⟩
      rw [this]; simp

/-- **C10.** After cross-partition bounding each privacy id is in exactly `min l0 n` of its `n`
partitions, and in those it has all its values. -/
theorem C10_cross_partition_bounded (B : Backend) (hB : B.Lawful) (l0 : ℕ) (h0 : 1 ≤ l0)
    (agg : List V → A) (col : List (P × K × V)) :
    ∃ kept : List ((P × K) × List V),
      boundCross B l0 agg col = kept.map (fun e => (e.1, agg e.2)) ∧
      KeptFrom col kept ∧
      (∀ e ∈ kept, e.2.Perm (cell e.1.1 e.1.2 col)) ∧
      (∀ p, (kept.filter fun e => e.1.1 = p).length = min l0 (partitionsOf p col).length) :=
  cross_kept B hB l0 h0 agg col

example : boundCross (localBackend lastRng) 2 List.sum sampleRows
    = [((1, 30), 9), ((1, 20), 8), ((2, 10), 7), ((2, 20), 3)] := by decide +kernel
example : boundCross (localBackend firstRng) 1 List.sum sampleRows
    = [((1, 10), 15), ((2, 10), 7)] := by decide +kernel

/-! ## per-partition bounding only, and no bounding -/

theorem pairs_count {col : List (P × K × V)} {kept : List ((P × K) × List V)}
    (hn : (kept.map Prod.fst).Nodup)
    (hkeys : ∀ k, k ∈ kept.map Prod.fst ↔ k ∈ (byPair col).map Prod.fst) (p : P) :
    (kept.filter fun e => e.1.1 = p).length = (partitionsOf p col).length := by
  have h1 : ((kept.filter fun e => e.1.1 = p).map Prod.fst).Nodup :=
    hn.sublist (List.filter_sublist.map _)
  have h2 : ((partitionsOf p col).map fun k => (p, k)).Nodup :=
    (partitionsOf_nodup p col).map (fun a b h => by simpa using h)
  have : ((kept.filter fun e => e.1.1 = p).map Prod.fst).Perm ((partitionsOf p col).map fun k => (p, k)) := by
    rw [List.perm_ext_iff_of_nodup h1 h2]
    rintro ⟨q, k⟩
    simp only [List.mem_map, List.mem_filter, decide_eq_true_eq, Prod.mk.injEq]
    constructor
    · rintro ⟨e, ⟨he, hp⟩, heq⟩
      refine ⟨k, ?_, ?_, rfl⟩
      · rw [mem_partitionsOf, ← hkeys]
        exact List.mem_map.mpr ⟨e, he, by rw [heq] at hp ⊢; simp only at hp; rw [hp]⟩
      · rw [heq] at hp; exact hp.symm
    · rintro ⟨k', hk', rfl, rfl⟩
      rw [mem_partitionsOf, ← hkeys] at hk'
      obtain ⟨e, he, heq⟩ := List.mem_map.mp hk'
      exact ⟨e, ⟨he, by rw [heq]⟩, heq⟩
  simpa using this.length_eq

theorem linf_kept (B : Backend) (hB : B.Lawful) (linf : ℕ) (hi : 1 ≤ linf) (agg : List V → A)
    (col : List (P × K × V)) :
    ∃ kept : List ((P × K) × List V),
      boundLinf B linf agg col = kept.map (fun e => (e.1, agg e.2)) ∧
      KeptFrom col kept ∧
      (∀ e ∈ kept, e.2.length = min linf (cell e.1.1 e.1.2 col).length) ∧
      (∀ p, (kept.filter fun e => e.1.1 = p).length = (partitionsOf p col).length) := by
  have hs := hB.sample "Sample per (privacy_id, partition_key)" (byPair col) linf hi
  refine ⟨_, rfl, keptFrom_of hs.nodup ?_ ?_, ?_, fun p => pairs_count hs.nodup hs.keys p⟩
  · intro e h1 hnil
    have h2 := hs.length e h1
    have h3 : e.1 ∈ (byPair col).map Prod.fst := (hs.keys e.1).mp (List.mem_map_of_mem h1)
    have h5 := List.length_pos_iff.mpr (valuesOf_ne_nil.mpr h3)
    rw [hnil] at h2; simp at h2; omega
  · intro e he
    have := hs.values e he
    rw [← valuesOf_byPair]; exact this
  · intro e he
    have := hs.length e he
    rw [← valuesOf_byPair]; exact this

/-- **C11.** Per-partition bounding: no `(id, partition)` pair is lost and each keeps exactly
`min linf m` of its `m` values. -/
theorem C11_linf_sampler (B : Backend) (hB : B.Lawful) (linf : ℕ) (hi : 1 ≤ linf) (agg : List V → A)
    (col : List (P × K × V)) :
    ∃ kept : List ((P × K) × List V),
      boundLinf B linf agg col = kept.map (fun e => (e.1, agg e.2)) ∧
      KeptFrom col kept ∧
      (∀ e ∈ kept, e.2.length = min linf (cell e.1.1 e.1.2 col).length) ∧
      (∀ p, (kept.filter fun e => e.1.1 = p).length = (partitionsOf p col).length) :=
  linf_kept B hB linf hi agg col

theorem noOp_kept (B : Backend) (hB : B.Lawful) (agg : List V → A) (col : List (P × K × V)) :
    ∃ kept : List ((P × K) × List V),
      boundNoOp B agg col = kept.map (fun e => (e.1, agg e.2)) ∧
      KeptFrom col kept ∧ (rowsBehind kept).Perm col := by
  have hg := hB.group (byPair col)
  have hval : ∀ e ∈ B.groupByKey (byPair col), e.2.Perm (cell e.1.1 e.1.2 col) := by
    intro e he
    have := hg.values e he
    rw [← valuesOf_byPair]; exact this
  refine ⟨_, rfl, keptFrom_of hg.nodup ?_ (fun e he => (hval e he).subperm), ?_⟩
  · intro e he hnil
    have h3 : e.1 ∈ (byPair col).map Prod.fst := (hg.keys e.1).mp (List.mem_map_of_mem he)
    have := (hg.values e he)
    rw [hnil] at this
    exact valuesOf_ne_nil.mpr h3 this.symm.eq_nil
  · have := hg.perm
    rw [rowsBehind_eq]
    have h2 := this.map fun e => (e.1.1, e.1.2, e.2)
    rwa [of_byPair] at h2

/-- **C11.** Without bounding every input row is aggregated exactly once, with its own id and
partition. -/
theorem C11_no_bounding_keeps_every_row (B : Backend) (hB : B.Lawful) (agg : List V → A)
    (col : List (P × K × V)) :
    ∃ kept : List ((P × K) × List V),
      boundNoOp B agg col = kept.map (fun e => (e.1, agg e.2)) ∧
      KeptFrom col kept ∧ (rowsBehind kept).Perm col :=
  noOp_kept B hB agg col

example : boundLinf (localBackend firstRng) 2 List.sum sampleRows
    = [((1, 10), 11), ((2, 10), 7), ((1, 20), 8), ((1, 30), 9), ((2, 20), 3)] := by decide +kernel
example : boundNoOp (localBackend firstRng) List.sum sampleRows
    = [((1, 10), 15), ((2, 10), 7), ((1, 20), 8), ((1, 30), 9), ((2, 20), 3)] := by decide +kernel

/-! ## data within the bounds is not touched -/

/-- **C12.** An id within both bounds loses nothing, whatever the other ids do. -/
theorem C12_within_bounds_lossless_cross_and_per (B : Backend) (hB : B.Lawful) (l0 linf : ℕ)
    (h0 : 1 ≤ l0) (hi : 1 ≤ linf) (agg : List V → A) (col : List (P × K × V)) :
    ∃ kept : List ((P × K) × List V),
      boundCrossAndPer B l0 linf agg col = kept.map (fun e => (e.1, agg e.2)) ∧
      (kept.map Prod.fst).Nodup ∧
      ∀ p, (partitionsOf p col).length ≤ l0 → (∀ k, (cell p k col).length ≤ linf) →
        ((rowsBehind kept).filter fun r => r.1 = p).Perm (col.filter fun r => r.1 = p) := by
  obtain ⟨kept, h1, h2, h3, h4⟩ := crossAndPer_kept B hB l0 linf h0 hi agg col
  refine ⟨kept, h1, h2.once, fun p hp hc => rows_perm_of_full p h2 ?_ ?_⟩
  · rw [h4 p]; omega
  · intro e he hep
    have := hc e.1.2
    rw [h3 e he, hep]; omega

/-- **C12.** Same for the bound on the total number of contributions. -/
theorem C12_within_bounds_lossless_per_id (B : Backend) (hB : B.Lawful) (m : ℕ) (hm : 1 ≤ m)
    (agg : List V → A) (col : List (P × K × V)) :
    ∃ kept : List ((P × K) × List V),
      boundPerId B m agg col = kept.map (fun e => (e.1, agg e.2)) ∧
      (kept.map Prod.fst).Nodup ∧
      ∀ p, (col.filter fun r => r.1 = p).length ≤ m →
        ((rowsBehind kept).filter fun r => r.1 = p).Perm (col.filter fun r => r.1 = p) := by
  obtain ⟨kept, h1, h2, h3⟩ := perId_kept B hB m hm agg col
  refine ⟨kept, h1, h2.once, fun p hp => ?_⟩
  have hsub : ((rowsBehind kept).filter fun r => r.1 = p).Subperm (col.filter fun r => r.1 = p) := by
    obtain ⟨c, hc1, hc2⟩ := h2.rows
    exact ⟨_, hc1.filter _, hc2.filter _⟩
  exact hsub.perm_of_length_le (by rw [h3 p]; omega)

/-- **C12.** Same for cross-partition bounding alone. -/
theorem C12_within_bounds_lossless_cross (B : Backend) (hB : B.Lawful) (l0 : ℕ) (h0 : 1 ≤ l0)
    (agg : List V → A) (col : List (P × K × V)) :
    ∃ kept : List ((P × K) × List V),
      boundCross B l0 agg col = kept.map (fun e => (e.1, agg e.2)) ∧
      (kept.map Prod.fst).Nodup ∧
      ∀ p, (partitionsOf p col).length ≤ l0 →
        ((rowsBehind kept).filter fun r => r.1 = p).Perm (col.filter fun r => r.1 = p) := by
  obtain ⟨kept, h1, h2, h3, h4⟩ := cross_kept B hB l0 h0 agg col
  refine ⟨kept, h1, h2.once, fun p hp => rows_perm_of_full p h2 ?_ ?_⟩
  · rw [h4 p]; omega
  · intro e he _; exact (h3 e he).length_eq

/-- **C12.** Same for per-partition bounding alone. -/
theorem C12_within_bounds_lossless_linf (B : Backend) (hB : B.Lawful) (linf : ℕ) (hi : 1 ≤ linf)
    (agg : List V → A) (col : List (P × K × V)) :
    ∃ kept : List ((P × K) × List V),
      boundLinf B linf agg col = kept.map (fun e => (e.1, agg e.2)) ∧
      (kept.map Prod.fst).Nodup ∧
      ∀ p, (∀ k, (cell p k col).length ≤ linf) →
        ((rowsBehind kept).filter fun r => r.1 = p).Perm (col.filter fun r => r.1 = p) := by
  obtain ⟨kept, h1, h2, h3, h4⟩ := linf_kept B hB linf hi agg col
  refine ⟨kept, h1, h2.once, fun p hc => rows_perm_of_full p h2 (h4 p) ?_⟩
  intro e he hep
  have := hc e.1.2
  rw [h3 e he, hep]; omega

/-- Id 2 of `sampleRows` is within the bounds (2, 1), id 1 is not. -/
example : (partitionsOf 2 sampleRows).length ≤ 2 ∧ (∀ k, (cell 2 k sampleRows).length ≤ 1) ∧
    ¬ (partitionsOf 1 sampleRows).length ≤ 2 := by
  refine ⟨by decide +kernel, fun k => ?_, by decide +kernel⟩
  by_cases h1 : k = 10
  · subst h1; decide +kernel
  · by_cases h2 : k = 20
    · subst h2; decide +kernel
    · simp [cell, sampleRows, Ne.symm h1, Ne.symm h2]

/-! ## one id does not influence the others -/

/-- **C13.** Under the same random choices, removing all rows of one privacy id removes exactly its
entries from the bounded collection: nothing of any other id changes. -/
theorem C13_non_interference_cross_and_per (B : Backend) (hB : B.KeyLocal) (l0 linf : ℕ)
    (agg : List V → A) (col : List (P × K × V)) (u : P) :
    boundCrossAndPer B l0 linf agg (col.filter fun r => r.1 ≠ u)
      = (boundCrossAndPer B l0 linf agg col).filter fun e => e.1.1 ≠ u := by
  have key : ∀ g : List (P × List (K × A)),
      nest (g.filter fun e => decide (e.1 ≠ u)) = (nest g).filter fun e => decide (e.1.1 ≠ u) := by
    intro g
    induction g with
    | nil => rfl
    | cons x g ih =>
      rw [List.filter_cons, nest_cons, List.filter_append, ← ih, List.filter_map]
      by_cases h : x.1 = u
      · simp [h, Function.comp_def]
      · simp [h, Function.comp_def, nest_cons]
  unfold boundCrossAndPer
  simp only
  have h1 : (col.filter fun r => decide (r.1 ≠ u)).map (fun r => ((r.1, r.2.1), r.2.2))
      = (col.map fun r => ((r.1, r.2.1), r.2.2)).filter (fun e => (fun q : P × K => decide (q.1 ≠ u)) e.1) := by
    rw [List.filter_map]; rfl
  rw [h1, hB.sample (fun q : P × K => decide (q.1 ≠ u))]
  set c2 := B.sampleFixedPerKey "Sample per (privacy_id, partition_key)"
    (col.map fun r => ((r.1, r.2.1), r.2.2)) linf
  have h2 : ((c2.filter fun e => decide (e.1.1 ≠ u)).map fun e => (e.1, agg e.2)).map
        (fun e => (e.1.1, (e.1.2, e.2)))
      = ((c2.map fun e => (e.1, agg e.2)).map fun e => (e.1.1, (e.1.2, e.2))).filter
          (fun e => (fun q : P => decide (q ≠ u)) e.1) := by
    rw [List.map_map, List.map_map, List.filter_map]; rfl
  rw [h2, hB.sample (fun q : P => decide (q ≠ u))]
  exact key _

theorem C13_non_interference_per_id (B : Backend) (hB : B.KeyLocal) (m : ℕ)
    (agg : List V → A) (col : List (P × K × V)) (u : P) :
    boundPerId B m agg (col.filter fun r => r.1 ≠ u)
      = (boundPerId B m agg col).filter fun e => e.1.1 ≠ u := by
  have key : ∀ g : List (P × List (K × V)),
      nest (collectPerPartition (g.filter fun e => decide (e.1 ≠ u)))
        = (nest (collectPerPartition g)).filter fun e => decide (e.1.1 ≠ u) := by
    intro g
    induction g with
    | nil => rfl
    | cons x g ih =>
      rw [List.filter_cons]
      have hc : ∀ (y : P × List (K × V)) (g : List (P × List (K × V))), collectPerPartition (y :: g)
        = (y.1, dictGroup y.2) :: collectPerPartition g := fun _ _ => rfl
      rw [hc x g, nest_cons, List.filter_append, ← ih, List.filter_map]
      by_cases h : x.1 = u
      · simp [h, Function.comp_def]
      · simp [h, Function.comp_def, hc, nest_cons]
  have hid : ∀ c : List (P × K × V), (c.map fun r => (r.1, (r.2.1, r.2.2))) = c := by intro c; simp
  unfold boundPerId
  simp only [hid]
  have := hB.sample (fun q : P => decide (q ≠ u)) "Sample per privacy_id" col m
  rw [this, List.filter_map]
  exact congrArg _ (key _)

theorem C13_non_interference_cross (B : Backend) (hB : B.KeyLocal) (l0 : ℕ)
    (agg : List V → A) (col : List (P × K × V)) (u : P) :
    boundCross B l0 agg (col.filter fun r => r.1 ≠ u)
      = (boundCross B l0 agg col).filter fun e => e.1.1 ≠ u := by
  have key : ∀ g : List (P × List (K × V)),
      nest ((collectPerPartition (g.filter fun e => decide (e.1 ≠ u))).map
        fun e => (e.1, B.choose "Sample" e.1 e.2 l0))
        = (nest ((collectPerPartition g).map fun e => (e.1, B.choose "Sample" e.1 e.2 l0))).filter
          fun e => decide (e.1.1 ≠ u) := by
    intro g
    induction g with
    | nil => rfl
    | cons x g ih =>
      rw [List.filter_cons]
      have hc : ∀ (y : P × List (K × V)) (g : List (P × List (K × V))), collectPerPartition (y :: g)
        = (y.1, dictGroup y.2) :: collectPerPartition g := fun _ _ => rfl
      rw [hc x g, List.map_cons, nest_cons, List.filter_append, ← ih, List.filter_map]
      by_cases h : x.1 = u
      · simp [h, Function.comp_def]
      · simp [h, Function.comp_def, hc, nest_cons]
  have hid : ∀ c : List (P × K × V), (c.map fun r => (r.1, (r.2.1, r.2.2))) = c := by intro c; simp
  unfold boundCross
  simp only [hid]
  have := hB.group (fun q : P => decide (q ≠ u)) col
  rw [this, List.filter_map]
  exact congrArg _ (key _)

theorem C13_non_interference_linf (B : Backend) (hB : B.KeyLocal) (linf : ℕ)
    (agg : List V → A) (col : List (P × K × V)) (u : P) :
    boundLinf B linf agg (col.filter fun r => r.1 ≠ u)
      = (boundLinf B linf agg col).filter fun e => e.1.1 ≠ u := by
  unfold boundLinf
  simp only
  have h1 : (col.filter fun r => decide (r.1 ≠ u)).map (fun r => ((r.1, r.2.1), r.2.2))
      = (col.map fun r => ((r.1, r.2.1), r.2.2)).filter (fun e => (fun q : P × K => decide (q.1 ≠ u)) e.1) := by
    rw [List.filter_map]; rfl
  rw [h1, hB.sample (fun q : P × K => decide (q.1 ≠ u)), List.filter_map]
  rfl

theorem C13_non_interference_no_bounding (B : Backend) (hB : B.KeyLocal)
    (agg : List V → A) (col : List (P × K × V)) (u : P) :
    boundNoOp B agg (col.filter fun r => r.1 ≠ u)
      = (boundNoOp B agg col).filter fun e => e.1.1 ≠ u := by
  unfold boundNoOp
  simp only
  have h1 : (col.filter fun r => decide (r.1 ≠ u)).map (fun r => ((r.1, r.2.1), r.2.2))
      = (col.map fun r => ((r.1, r.2.1), r.2.2)).filter (fun e => (fun q : P × K => decide (q.1 ≠ u)) e.1) := by
    rw [List.filter_map]; rfl
  rw [h1, hB.group (fun q : P × K => decide (q.1 ≠ u)), List.filter_map]
  rfl

/-- The hypotheses of C08–C13 are met by `LocalBackend` with any generator. -/
example (rng : Rng) : (localBackend rng).Lawful ∧ (localBackend rng).KeyLocal :=
  ⟨C39_local_backend_lawful rng, localBackend_keyLocal rng⟩

example : boundCrossAndPer (localBackend lastRng) 2 2 List.sum (sampleRows.filter fun r => r.1 ≠ 1)
    = [((2, 10), 7), ((2, 20), 3)] := by decide +kernel

end PDP
