import Verif.Analysis.PredictsSelection

/-!
# Property C64 on `LocalBackend`: numpy's choices of indices make uniform choices of partitions

`LocalBackend.sample_fixed_per_key` (`pipeline_backend.py:531-547`) and `choose_from_list_without_replacement`
(`sampling_utils.py:19-29`) call `np.random.choice(range(len), n, replace=False)` for every key with more than `n` values.  From
the distribution documented for these calls follows the distribution of the partitions kept by the engine.
-/

set_option linter.unusedVariables false
set_option linter.unusedSectionVars false

namespace PDP.Analysis

open PDP
open PDP.Engine (Combiner relevant LawfulCombine selectBounder dropPartitions)

variable {Ω P K V A : Type} [Fintype Ω] [DecidableEq P] [DecidableEq K]

/-! ### Specification -/

/-- The calls of `np.random.choice(range(len u), n, replace=False)` for the keys `u` with more than `n` values are independent, and
each gives every set of `n` indices with the same probability. -/
def UniformPicks (w : Ω → ℝ) (rng : Ω → Rng) (stage : String) (keys : Finset P) (len : P → ℕ) (n : ℕ) : Prop :=
  ∀ T : P → Finset ℕ, (∀ u ∈ keys, n < len u → T u ⊆ Finset.range (len u) ∧ (T u).card = n) →
    prob w (fun ω => ∀ u ∈ keys, n < len u → ((rng ω).pick stage u (len u) n).toFinset = T u)
      = ∏ u ∈ keys.filter fun u => n < len u, (1 / ((len u).choose n : ℝ))

/-! ### Picking from lists -/

/-- What is kept of a list. -/
def pickFrom (rng : Rng) (stage : String) (u : P) (l : List V) (n : ℕ) : List V :=
  if l.length > n then takeIndices l (rng.pick stage u l.length n) else l

theorem takeIndices_map {V W : Type} (f : V → W) (l : List V) (idx : List ℕ) :
    (takeIndices l idx).map f = takeIndices (l.map f) idx := by
  unfold takeIndices
  rw [List.map_filterMap]
  congr 1
  funext i
  simp

theorem pickFrom_map (rng : Rng) (stage : String) (u : P) {W : Type} (f : V → W) (l : List V) (n : ℕ) :
    (pickFrom rng stage u l n).map f = pickFrom rng stage u (l.map f) n := by
  unfold pickFrom
  rw [List.length_map]
  split
  · exact takeIndices_map f _ _
  · rfl

/-- The picked elements determine the picked indices. -/
theorem takeIndices_eq_iff (l : List K) (hl : l.Nodup) (idx : List ℕ) (hlt : ∀ i ∈ idx, i < l.length) (S : Finset K)
    (hS : S ⊆ l.toFinset) :
    (takeIndices l idx).toFinset = S ↔ idx.toFinset = (Finset.range l.length).filter fun i => ∃ x ∈ S, l[i]? = some x := by
  constructor
  · rintro rfl
    ext i
    rw [List.mem_toFinset, Finset.mem_filter, Finset.mem_range]
    simp only [List.mem_toFinset, takeIndices, List.mem_filterMap]
    constructor
    · intro hi
      have := hlt i hi
      exact ⟨this, l[i], ⟨i, hi, List.getElem?_eq_getElem this⟩, List.getElem?_eq_getElem this⟩
    · rintro ⟨hi, x, ⟨j, hj, hx⟩, hix⟩
      obtain ⟨hj1, hj2⟩ := List.getElem?_eq_some_iff.mp hx
      obtain ⟨hi1, hi2⟩ := List.getElem?_eq_some_iff.mp hix
      have : j = i := (List.Nodup.getElem_inj_iff hl).mp (hj2.trans hi2.symm)
      exact this ▸ hj
  · intro h
    ext x
    simp only [List.mem_toFinset, takeIndices, List.mem_filterMap]
    have hmem : ∀ i, i ∈ idx ↔ i < l.length ∧ ∃ x ∈ S, l[i]? = some x := by
      intro i
      have := congrArg (fun s => i ∈ s) h
      simpa using this
    constructor
    · rintro ⟨i, hi, hx⟩
      obtain ⟨-, y, hy, hiy⟩ := (hmem i).mp hi
      rw [hx] at hiy; cases hiy
      exact hy
    · intro hx
      obtain ⟨i, hi, rfl⟩ := List.mem_iff_getElem.mp (List.mem_toFinset.mp (hS hx))
      exact ⟨i, (hmem i).mpr ⟨hi, _, hx, List.getElem?_eq_getElem hi⟩, List.getElem?_eq_getElem hi⟩

theorem card_indices (l : List K) (hl : l.Nodup) (S : Finset K) (hS : S ⊆ l.toFinset) :
    ((Finset.range l.length).filter fun i => ∃ x ∈ S, l[i]? = some x).card = S.card := by
  have : S = ((Finset.range l.length).filter fun i => ∃ x ∈ S, l[i]? = some x).attach.image fun i =>
      l[i.1]'(Finset.mem_range.mp (Finset.mem_filter.mp i.2).1) := by
    ext x
    simp only [Finset.mem_image, Finset.mem_attach, true_and, Subtype.exists, Finset.mem_filter, Finset.mem_range]
    constructor
    · intro hx
      obtain ⟨i, hi, rfl⟩ := List.mem_iff_getElem.mp (List.mem_toFinset.mp (hS hx))
      exact ⟨i, ⟨hi, _, hx, List.getElem?_eq_getElem hi⟩, rfl⟩
    · rintro ⟨i, ⟨hi, y, hy, hiy⟩, rfl⟩
      rw [List.getElem?_eq_getElem hi] at hiy
      cases hiy
      exact hy
  conv_rhs => rw [this]
  rw [Finset.card_image_of_injOn, Finset.card_attach]
  intro a _ b _ hab
  exact Subtype.ext ((List.Nodup.getElem_inj_iff hl).mp hab)

/-- Uniform choices of indices of duplicate free lists are uniform choices of their elements. -/
theorem uniformChoices_of_picks {w : Ω → ℝ} {rng : Ω → Rng} {stage : String} {keys : Finset P} (L : P → List K)
    (hL : ∀ u, (L u).Nodup) {l0 : ℕ} (h : UniformPicks w rng stage keys (fun u => (L u).length) l0) {kept : Ω → P → Finset K}
    (hk : ∀ ω u, kept ω u = (pickFrom (rng ω) stage u (L u) l0).toFinset) :
    UniformChoices w keys (fun u => (L u).toFinset) l0 kept := by
  intro S hS
  have hcard : ∀ u, (L u).toFinset.card = (L u).length := fun u => List.toFinset_card_of_nodup (hL u)
  have hT := h (fun u => (Finset.range (L u).length).filter fun i => ∃ x ∈ S u, (L u)[i]? = some x) (by
    intro u hu hlt
    refine ⟨Finset.filter_subset _ _, ?_⟩
    rw [card_indices (L u) (hL u) (S u) (hS u hu).1, (hS u hu).2, hcard]
    exact min_eq_left hlt.le)
  have hev : ∀ ω, (∀ u ∈ keys, kept ω u = S u) ↔ ∀ u ∈ keys, l0 < (L u).length →
      ((rng ω).pick stage u (L u).length l0).toFinset = (Finset.range (L u).length).filter fun i => ∃ x ∈ S u, (L u)[i]? = some x := by
    intro ω
    refine forall₂_congr fun u hu => ?_
    rw [hk, pickFrom]
    by_cases hlt : l0 < (L u).length
    · rw [if_pos hlt, takeIndices_eq_iff (L u) (hL u) _ ((rng ω).lt stage u _ _) (S u) (hS u hu).1]
      exact ⟨fun h _ => h, fun h => h hlt⟩
    · rw [if_neg hlt]
      refine ⟨fun _ h => absurd h hlt, fun _ => ?_⟩
      refine (Finset.eq_of_subset_of_card_le (hS u hu).1 ?_).symm
      rw [(hS u hu).2, hcard]
      omega
  simp only [hev]
  dsimp only at hT
  rw [hT, Finset.prod_filter]
  refine Finset.prod_congr rfl fun u _ => ?_
  rw [hcard]
  split
  · rename_i hlt; rw [min_eq_left hlt.le]
  · rename_i hlt
    rw [min_eq_right (by omega), Nat.choose_self]; simp

/-! ### The bounders -/

theorem filter_flatMap_key {B : Type} (u : P) (g : List (P × List (K × A))) (hg : (g.map Prod.fst).Nodup) (l : List (K × A))
    (hmem : (u, l) ∈ g ∨ (u ∉ g.map Prod.fst ∧ l = [])) :
    ((g.flatMap fun e => e.2.map fun x => ((e.1, x.1), x.2)).filter fun e => e.1.1 = u).map (fun e => e.1.2) = l.map Prod.fst := by
  induction g with
  | nil =>
    rcases hmem with h | ⟨-, rfl⟩
    · simp at h
    · rfl
  | cons e g ih =>
    rw [List.map_cons, List.nodup_cons] at hg
    rw [List.flatMap_cons, List.filter_append, List.map_append]
    by_cases he : e.1 = u
    · have hl : e.2 = l := by
        rcases hmem with h | ⟨h, -⟩
        · rcases List.mem_cons.mp h with h | h
          · rw [← h]
          · exact absurd (List.mem_map.mpr ⟨_, h, he.symm⟩) hg.1
        · exact absurd (by simp [he]) h
      have hrest : ((g.flatMap fun e => e.2.map fun x => ((e.1, x.1), x.2)).filter fun e => e.1.1 = u) = [] := by
        rw [List.filter_eq_nil_iff]
        intro y hy
        obtain ⟨e', he', hy⟩ := List.mem_flatMap.mp hy
        obtain ⟨x, -, rfl⟩ := List.mem_map.mp hy
        simp only [decide_eq_true_eq]
        intro h
        exact hg.1 (List.mem_map.mpr ⟨e', he', by rw [h, he]⟩)
      rw [hrest, List.map_nil, List.append_nil, List.filter_eq_self.mpr, List.map_map, hl]
      · rfl
      · intro y hy
        obtain ⟨x, -, rfl⟩ := List.mem_map.mp hy
        simp [he]
    · have hfirst : ((e.2.map fun x => ((e.1, x.1), x.2)).filter fun e => e.1.1 = u) = [] := by
        rw [List.filter_eq_nil_iff]
        intro y hy
        obtain ⟨x, -, rfl⟩ := List.mem_map.mp hy
        simp [he]
      rw [hfirst, List.map_nil, List.nil_append]
      apply ih hg.2
      rcases hmem with h | ⟨h, hl⟩
      · rcases List.mem_cons.mp h with h | h
        · exact absurd (congrArg Prod.fst h).symm he
        · exact .inl h
      · exact .inr ⟨fun h' => h (by simp [h']), hl⟩

theorem localSample_key (rng : Rng) (stage : String) (col : List (P × (K × A))) (n : ℕ) (u : P) :
    (((localSample rng stage col n).flatMap fun e => e.2.map fun x => ((e.1, x.1), x.2)).filter fun e => e.1.1 = u).map
      (fun e => e.1.2) = pickFrom rng stage u ((valuesOf u col).map Prod.fst) n := by
  rw [← pickFrom_map]
  have hfst : (localSample rng stage col n).map Prod.fst = (dictGroup col).map Prod.fst := by
    simp [localSample, Function.comp_def]
  refine filter_flatMap_key (B := A) u _ (hfst ▸ dictGroup_nodup col) _ ?_
  by_cases hu : u ∈ (dictGroup col).map Prod.fst
  · left
    obtain ⟨e, he, rfl⟩ := List.mem_map.mp hu
    refine List.mem_map.mpr ⟨e, he, ?_⟩
    rw [← dictGroup_values col e he]
    rfl
  · right
    refine ⟨by rw [hfst]; exact hu, ?_⟩
    rw [dictGroup_keys] at hu
    have : valuesOf u col = [] := by
      by_contra h
      exact hu (valuesOf_ne_nil.mp h)
    rw [this]
    simp [pickFrom]

/-- Partitions of a user in the order in which they occur. -/
def partitionOrder (rows : List (P × K × V)) (u : P) : List K :=
  (dictGroup (valuesOf u (rows.map fun r => (r.1, (r.2.1, r.2.2))))).map Prod.fst

/-- Partitions of a user in the order in which the pairs occur. -/
def pairOrder (rows : List (P × K × V)) (u : P) : List K :=
  (valuesOf u ((dictGroup (rows.map fun r => ((r.1, r.2.1), r.2.2))).map fun e => e.1))

theorem crossAndPer_key (rng : Rng) (l0 linf : ℕ) (agg : List V → A) (rows : List (P × K × V)) (u : P) :
    (((boundCrossAndPer (localBackend rng) l0 linf agg rows).filter fun e => e.1.1 = u).map fun e => e.1.2) =
      pickFrom rng "Sample per privacy_id" u (pairOrder rows u) l0 := by
  unfold boundCrossAndPer
  dsimp only [localBackend]
  rw [localSample_key]
  congr 1
  simp only [pairOrder, valuesOf, List.filter_map, List.map_map, localBackend, localSample, Function.comp_def]

theorem cross_key (rng : Rng) (l0 : ℕ) (agg : List V → A) (rows : List (P × K × V)) (u : P) :
    (((boundCross (localBackend rng) l0 agg rows).filter fun e => e.1.1 = u).map fun e => e.1.2) =
      pickFrom rng "Sample" u (partitionOrder rows u) l0 := by
  set col := rows.map fun r => (r.1, (r.2.1, r.2.2)) with hcol
  set g := (dictGroup col).map fun e => (e.1, chooseFromList rng "Sample" e.1 (dictGroup e.2) l0) with hg
  have hrun : boundCross (localBackend rng) l0 agg rows =
      (g.flatMap fun e => e.2.map fun x => ((e.1, x.1), x.2)).map fun e => (e.1, agg e.2) := by
    simp only [boundCross, localBackend, collectPerPartition, List.map_map, hg, hcol, Function.comp_def]
  have hchoose : ∀ (u : P) (l : List (K × List V)), chooseFromList rng "Sample" u l l0 = pickFrom rng "Sample" u l l0 := by
    intro u l
    unfold chooseFromList pickFrom
    by_cases h : l.length ≤ l0
    · rw [if_pos h, if_neg (by omega)]
    · rw [if_neg h, if_pos (by omega)]
  rw [hrun, List.filter_map, List.map_map]
  have hfst : g.map Prod.fst = (dictGroup col).map Prod.fst := by simp [hg, Function.comp_def]
  have := filter_flatMap_key (B := A) u g (hfst ▸ dictGroup_nodup col)
    (pickFrom rng "Sample" u (dictGroup (valuesOf u col)) l0) (by
    by_cases hu : u ∈ (dictGroup col).map Prod.fst
    · left
      obtain ⟨e, he, rfl⟩ := List.mem_map.mp hu
      refine List.mem_map.mpr ⟨e, he, ?_⟩
      rw [hchoose, ← dictGroup_values col e he]
    · right
      refine ⟨by rw [hfst]; exact hu, ?_⟩
      rw [dictGroup_keys] at hu
      have : valuesOf u col = [] := by
        by_contra h
        exact hu (valuesOf_ne_nil.mp h)
      rw [this]
      simp [pickFrom, dictGroup])
  rw [partitionOrder, ← hcol, ← pickFrom_map, ← this]
  rfl

theorem partitionOrder_nodup (rows : List (P × K × V)) (u : P) : (partitionOrder rows u).Nodup := dictGroup_nodup _

theorem pairOrder_nodup (rows : List (P × K × V)) (u : P) : (pairOrder rows u).Nodup := by
  have h := dictGroup_nodup (rows.map fun r => ((r.1, r.2.1), r.2.2))
  unfold pairOrder valuesOf
  refine List.Nodup.map_on ?_ (h.filter _)
  intro x hx y hy hxy
  simp only [List.mem_filter, decide_eq_true_eq] at hx hy
  exact Prod.ext (hx.2.trans hy.2.symm) hxy

theorem mem_partitionOrder (rows : List (P × K × V)) (u : P) :
    (partitionOrder rows u).toFinset = (partitionsOf u rows).toFinset := by
  ext k
  rw [List.mem_toFinset, partitionOrder, dictGroup_keys]
  simp only [List.mem_toFinset, partitionsOf, List.mem_dedup, valuesOf, List.mem_map, List.mem_filter, decide_eq_true_eq]
  constructor
  · rintro ⟨x, ⟨y, ⟨⟨r, hr, rfl⟩, hu⟩, rfl⟩, rfl⟩
    exact ⟨r, ⟨hr, hu⟩, rfl⟩
  · rintro ⟨r, ⟨hr, hu⟩, rfl⟩
    exact ⟨_, ⟨_, ⟨⟨r, hr, rfl⟩, hu⟩, rfl⟩, rfl⟩

theorem mem_pairOrder (rows : List (P × K × V)) (u : P) :
    (pairOrder rows u).toFinset = (partitionsOf u rows).toFinset := by
  ext k
  rw [List.mem_toFinset, pairOrder, mem_valuesOf, dictGroup_keys]
  simp only [List.mem_toFinset, partitionsOf, List.mem_dedup, List.mem_map, List.mem_filter, decide_eq_true_eq, Prod.mk.injEq,
    Prod.exists]
  constructor
  · rintro ⟨a, b, c, ⟨r1, r2, r3, hr, ⟨rfl, rfl⟩, rfl⟩, rfl, rfl⟩
    exact ⟨_, _, _, ⟨hr, rfl⟩, rfl⟩
  · rintro ⟨r1, r2, r3, ⟨hr, rfl⟩, rfl⟩
    exact ⟨_, _, _, ⟨_, _, _, hr, ⟨rfl, rfl⟩, rfl⟩, rfl, rfl⟩

theorem order_length {L : List K} {u : P} {rows : List (P × K × V)} (hn : L.Nodup) (h : L.toFinset = (partitionsOf u rows).toFinset) :
    L.length = (partitionsOf u rows).length := by
  rw [← List.toFinset_card_of_nodup hn, h, List.toFinset_card_of_nodup (partitionsOf_nodup u rows)]

/-! ### Generators exist -/

/-- The possible index sets of all keys. -/
abbrev Choices (keys : Finset P) (len : P → ℕ) (n : ℕ) : Type := (u : keys) → ((Finset.range (len u.1)).powersetCard (min n (len u.1)))

open Classical in
/-- A generator which picks the given index sets. -/
noncomputable def rngOf {keys : Finset P} {len : P → ℕ} {n : ℕ} (c : Choices keys len n) : Rng where
  pick {Q} stage k l m :=
    if h : ∃ (e : Q = P) (u : keys), cast e k = u.1 ∧ l = len u.1 ∧ m = n then (c h.choose_spec.choose).1.toList
    else List.range (min m l)
  nodup {Q} stage k l m := by
    split
    · exact Finset.nodup_toList _
    · exact List.nodup_range
  lt {Q} stage k l m i hi := by
    split at hi
    · rename_i h
      obtain ⟨-, h2, -⟩ := h.choose_spec.choose_spec
      have := (Finset.mem_powersetCard.mp (c h.choose_spec.choose).2).1 (Finset.mem_toList.mp hi)
      rw [h2]
      exact Finset.mem_range.mp this
    · have := List.mem_range.mp hi
      omega
  length {Q} stage k l m hm := by
    split
    · rename_i h
      obtain ⟨-, h2, h3⟩ := h.choose_spec.choose_spec
      have := (Finset.mem_powersetCard.mp (c h.choose_spec.choose).2).2
      rw [Finset.length_toList, this]
      omega
    · rw [List.length_range]; omega

open Classical in
theorem rngOf_pick {keys : Finset P} {len : P → ℕ} {n : ℕ} (c : Choices keys len n) (stage : String) (u : keys) :
    ((rngOf c).pick stage u.1 (len u.1) n).toFinset = (c u).1 := by
  have h : ∃ (e : P = P) (v : keys), cast e u.1 = v.1 ∧ len u.1 = len v.1 ∧ n = n := ⟨rfl, u, rfl, rfl, rfl⟩
  show (if h : ∃ (e : P = P) (v : keys), cast e u.1 = v.1 ∧ len u.1 = len v.1 ∧ n = n then (c h.choose_spec.choose).1.toList
    else List.range (min n (len u.1))).toFinset = _
  rw [dif_pos h, Finset.toList_toFinset]
  have : h.choose_spec.choose = u := Subtype.ext h.choose_spec.choose_spec.1.symm
  rw [this]

/-- For any keys and numbers of values there are generators with independent uniform choices. -/
theorem exists_uniformPicks (keys : Finset P) (len : P → ℕ) (n : ℕ) :
    ∃ (w : Choices keys len n → ℝ) (rng : Choices keys len n → Rng),
      IsProbability w ∧ ∀ stage, UniformPicks w rng stage keys len n := by
  have hcard : (Fintype.card (Choices keys len n) : ℝ) = ∏ u ∈ keys, ((len u).choose (min n (len u)) : ℝ) := by
    rw [Fintype.card_pi]
    simp only [Fintype.card_coe, Finset.card_powersetCard, Finset.card_range]
    rw [Nat.cast_prod]
    exact Finset.prod_coe_sort keys fun u => ((len u).choose (min n (len u)) : ℝ)
  have hpos : (0 : ℝ) < Fintype.card (Choices keys len n) := by
    rw [hcard]
    exact Finset.prod_pos fun u _ => by exact_mod_cast Nat.choose_pos (min_le_right _ _)
  refine ⟨fun _ => 1 / (Fintype.card (Choices keys len n) : ℝ), rngOf, ⟨fun _ => by positivity, ?_⟩, fun stage T hT => ?_⟩
  · rw [Finset.sum_const, Finset.card_univ, nsmul_eq_mul, mul_one_div, div_self hpos.ne']
  · have hT' : ∀ u : keys, (if n < len u.1 then T u.1 else Finset.range (len u.1)) ∈
        (Finset.range (len u.1)).powersetCard (min n (len u.1)) := by
      intro u
      rw [Finset.mem_powersetCard]
      split
      · rename_i h
        rw [min_eq_left h.le]
        exact hT u.1 u.2 h
      · rename_i h
        exact ⟨subset_rfl, by rw [Finset.card_range]; omega⟩
    have hev : ∀ c : Choices keys len n, (∀ u ∈ keys, n < len u → ((rngOf c).pick stage u (len u) n).toFinset = T u) ↔
        c = fun u => ⟨_, hT' u⟩ := by
      intro c
      constructor
      · intro h
        funext u
        apply Subtype.ext
        dsimp only
        have hmem := Finset.mem_powersetCard.mp (c u).2
        split
        · rename_i hlt
          rw [← h u.1 u.2 hlt, rngOf_pick]
        · rename_i hlt
          refine Finset.eq_of_subset_of_card_le hmem.1 ?_
          rw [hmem.2, Finset.card_range]
          omega
      · rintro rfl u hu hlt
        rw [rngOf_pick _ stage ⟨u, hu⟩]
        simp [hlt]
    classical
    simp only [hev]
    rw [prob_eq, Finset.sum_ite_eq' Finset.univ]
    simp only [Finset.mem_univ, if_true]
    rw [hcard, Finset.prod_filter, one_div, ← Finset.prod_inv_distrib]
    refine Finset.prod_congr rfl fun u _ => ?_
    split
    · rename_i h; rw [min_eq_left h.le, one_div]
    · rename_i h; rw [min_eq_right (by omega), Nat.choose_self]; simp

/-! ### The theorems -/

/-- **C64** (local backend).  On `LocalBackend` with independent uniform choices of indices by numpy, the engine keeps for every user,
independently of the others, a uniformly random choice of its partitions: the executions are those for which the predictions of
the analysis hold. -/
theorem C64_local_backend_is_uniform {w : Ω → ℝ} (hw : IsProbability w) (rng : Ω → Rng) (p : Engine.Params) {l0 linf : ℕ}
    (hp : Bounds p l0 linf) (cs : List (Combiner ℚ))
    (comb : Ω → List (K × (Combiner.compound cs).Acc) → List (K × (Combiner.compound cs).Acc))
    (hcomb : ∀ ω, LawfulCombine (Combiner.compound cs).merge (comb ω)) (pub : Option (List K)) (rows : List (P × K × ℚ))
    (hf : p.publicFiltered = true → ∀ ps, pub = some ps → ∀ r ∈ rows, r.2.1 ∈ ps)
    (hu : ∀ stage, UniformPicks w rng stage ((relevant pub rows).map fun r => r.1).toFinset
      (fun u => (partitionsOf u (relevant pub rows)).length) l0) :
    Executions w p l0 cs (fun ω => localBackend (rng ω)) comb pub rows where
  isProbability := hw
  backend ω := C39_local_backend_lawful _
  combine := hcomb
  uniform hc := by
    have hdrop : dropPartitions p pub rows = relevant pub rows := by
      unfold dropPartitions relevant
      cases pub with
      | none => rfl
      | some ps =>
        dsimp only
        split
        · rename_i h
          exact (List.filter_eq_self.mpr fun r hr => by simpa using hf h ps rfl r hr).symm
        · rfl
    cases hs : (Combiner.compound cs).sampling with
    | true =>
      have hsel : selectBounder p true = .ok (.crossAndPer l0 linf) := by
        simp [selectBounder, hp.noTotal, hc, hp.partitions, hp.perPartition, Engine.natArg, bind, Except.bind, pure, Except.pure]
      have hlen : (fun u => (partitionsOf u (relevant pub rows)).length) = fun u => (pairOrder (relevant pub rows) u).length :=
        funext fun u => (order_length (pairOrder_nodup _ u) (mem_pairOrder _ u)).symm
      have := uniformChoices_of_picks (pairOrder (relevant pub rows)) (pairOrder_nodup _)
        (hlen ▸ hu "Sample per privacy_id")
        (kept := fun ω => keptPartitions (localBackend (rng ω)) p cs pub rows) (fun ω u => by
          simp only [keptPartitions, hs, hsel, Engine.Bounder.run, hdrop, crossAndPer_key])
      simpa only [mem_pairOrder] using this
    | false =>
      have hsel : selectBounder p false = .ok (.cross l0) := by
        simp [selectBounder, hp.noTotal, hc, hp.partitions, Engine.natArg, bind, Except.bind, pure, Except.pure]
      have hlen : (fun u => (partitionsOf u (relevant pub rows)).length) = fun u => (partitionOrder (relevant pub rows) u).length :=
        funext fun u => (order_length (partitionOrder_nodup _ u) (mem_partitionOrder _ u)).symm
      have := uniformChoices_of_picks (partitionOrder (relevant pub rows)) (partitionOrder_nodup _) (hlen ▸ hu "Sample")
        (kept := fun ω => keptPartitions (localBackend (rng ω)) p cs pub rows) (fun ω u => by
          simp only [keptPartitions, hs, hsel, Engine.Bounder.run, hdrop, cross_key])
      simpa only [mem_partitionOrder] using this

/-- The hypotheses can be met for every dataset and all parameters. -/
theorem C64_local_executions_exist (p : Engine.Params) {l0 linf : ℕ} (hp : Bounds p l0 linf) (cs : List (Combiner ℚ))
    (pub : Option (List K)) (rows : List (P × K × ℚ))
    (hf : p.publicFiltered = true → ∀ ps, pub = some ps → ∀ r ∈ rows, r.2.1 ∈ ps) :
    ∃ (Ω : Type) (_ : Fintype Ω) (w : Ω → ℝ) (rng : Ω → Rng), Executions w p l0 cs (fun ω => localBackend (rng ω))
      (fun _ => Engine.localCombine (Combiner.compound cs).merge) pub rows := by
  obtain ⟨w, rng, hw, hu⟩ := exists_uniformPicks ((relevant pub rows).map fun r => r.1).toFinset
    (fun u => (partitionsOf u (relevant pub rows)).length) l0
  exact ⟨_, inferInstance, w, rng, C64_local_backend_is_uniform hw rng p hp cs _ (fun _ => Engine.localCombine_lawful _) pub rows hf hu⟩

end PDP.Analysis
