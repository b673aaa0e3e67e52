import Verif.Bounding.Spec

/-! Helper lemmas for contribution bounding. -/

set_option linter.unusedSectionVars false

namespace PDP

/-! ### Sampling by indices -/

theorem filterMap_range_getElem {V : Type} (l : List V) :
    (List.range l.length).filterMap (fun i => l[i]?) = l := by
  induction l with
  | nil => rfl
  | cons a l ih =>
    rw [List.length_cons, List.range_succ_eq_map, List.filterMap_cons, List.filterMap_map]
    simpa [Function.comp_def] using ih

theorem takeIndices_subperm {V : Type} (l : List V) (idx : List ℕ) (hn : idx.Nodup)
    (hlt : ∀ i ∈ idx, i < l.length) : (takeIndices l idx).Subperm l := by
  have h1 : idx.Subperm (List.range l.length) :=
    List.subperm_of_subset hn (fun i hi => List.mem_range.mpr (hlt i hi))
  have h2 := filterMap_range_getElem l
  obtain ⟨m, hp, hs⟩ := h1
  have hs' := hs.filterMap (fun i => l[i]?)
  rw [h2] at hs'
  exact ⟨_, hp.filterMap _, hs'⟩

theorem takeIndices_length {V : Type} (l : List V) (idx : List ℕ) (hlt : ∀ i ∈ idx, i < l.length) :
    (takeIndices l idx).length = idx.length := by
  unfold takeIndices
  induction idx with
  | nil => rfl
  | cons i idx ih =>
    have hi := hlt i (by simp)
    simp [hi, ih (fun j hj => hlt j (by simp [hj]))]

theorem chooseFromList_spec (rng : Rng) {K V : Type} (stage : String) (k : K) (l : List V) (n : ℕ) :
    (chooseFromList rng stage k l n).Subperm l ∧
    (chooseFromList rng stage k l n).length = min n l.length := by
  unfold chooseFromList
  split
  · rename_i h; exact ⟨List.Subperm.refl _, by omega⟩
  · rename_i h
    refine ⟨takeIndices_subperm _ _ (rng.nodup _ _ _ _) (rng.lt _ _ _ _), ?_⟩
    rw [takeIndices_length _ _ (rng.lt _ _ _ _), rng.length _ _ _ _ (by omega)]; omega

theorem isSampling_localSample (rng : Rng) {K V : Type} [DecidableEq K] (stage : String)
    (col : List (K × V)) (n : ℕ) : IsSampling n col (localSample rng stage col n) := by
  have hfst : (localSample rng stage col n).map Prod.fst = (dictGroup col).map Prod.fst := by
    simp [localSample, Function.comp_def]
  refine ⟨hfst ▸ dictGroup_nodup col, fun k => by rw [hfst]; exact dictGroup_keys col k, ?_, ?_⟩
  · intro e he
    obtain ⟨e', he', rfl⟩ := List.mem_map.mp he
    have := dictGroup_values col e' he'
    simp only
    rw [← this]
    split
    · exact takeIndices_subperm _ _ (rng.nodup _ _ _ _) (rng.lt _ _ _ _)
    · exact List.Subperm.refl _
  · intro e he
    obtain ⟨e', he', rfl⟩ := List.mem_map.mp he
    have := dictGroup_values col e' he'
    simp only
    rw [← this]
    split
    · rename_i h
      rw [takeIndices_length _ _ (rng.lt _ _ _ _), rng.length _ _ _ _ (by omega)]; omega
    · rename_i h; omega

theorem dictAppend_filter_pos {K V : Type} [DecidableEq K] (S : K → Bool) (d : List (K × List V))
    (k : K) (v : V) (h : S k = true) :
    (dictAppend d k v).filter (fun e => S e.1) = dictAppend (d.filter fun e => S e.1) k v := by
  induction d with
  | nil => simp [dictAppend, h]
  | cons e d ih =>
    obtain ⟨k', vs⟩ := e
    unfold dictAppend
    by_cases hk : k' = k
    · subst hk
      simp [h]
    · by_cases hs : S k' = true
      · simp [hk, hs, ih]
      · simp [hk, hs, ih]
        cases hd : (d.filter fun e => S e.1) <;> simp [dictAppend]

theorem dictAppend_filter_neg {K V : Type} [DecidableEq K] (S : K → Bool) (d : List (K × List V))
    (k : K) (v : V) (h : S k = false) :
    (dictAppend d k v).filter (fun e => S e.1) = d.filter fun e => S e.1 := by
  induction d with
  | nil => simp [dictAppend, h]
  | cons e d ih =>
    obtain ⟨k', vs⟩ := e
    unfold dictAppend
    by_cases hk : k' = k
    · subst hk; simp [h]
    · simp [hk, List.filter_cons, ih]

theorem dictGroup_filter {K V : Type} [DecidableEq K] (S : K → Bool) (col : List (K × V)) :
    dictGroup (col.filter fun e => S e.1) = (dictGroup col).filter fun e => S e.1 := by
  have : ∀ d : List (K × List V),
      (col.filter fun e => S e.1).foldl (fun d e => dictAppend d e.1 e.2) (d.filter fun e => S e.1)
      = (col.foldl (fun d e => dictAppend d e.1 e.2) d).filter fun e => S e.1 := by
    induction col with
    | nil => intro d; rfl
    | cons x col ih =>
      intro d
      rw [List.filter_cons]
      by_cases h : S x.1 = true
      · rw [if_pos h, List.foldl_cons, List.foldl_cons, ← ih, dictAppend_filter_pos _ _ _ _ h]
      · rw [if_neg h, List.foldl_cons, ← ih, dictAppend_filter_neg _ _ _ _ (by simpa using h)]
  simpa [dictGroup] using this []

theorem subperm_map {α β : Type} (f : α → β) {a b : List α} (h : a.Subperm b) :
    (a.map f).Subperm (b.map f) := by
  obtain ⟨c, hp, hs⟩ := h
  exact ⟨_, hp.map f, hs.map f⟩

/-! ### Lifting samples through a map -/

theorem perm_map_lift {α β : Type} (f : α → β) {m : List α} {l : List β} (h : l.Perm (m.map f)) :
    ∃ m' : List α, m'.Perm m ∧ l = m'.map f := by
  generalize hx : m.map f = x at h
  induction h generalizing m with
  | nil => exact ⟨[], by simp at hx; rw [hx], rfl⟩
  | @cons a l1 l2 h ih =>
    obtain ⟨b, m, rfl, rfl, h2⟩ := List.map_eq_cons_iff.mp hx
    obtain ⟨m', h3, rfl⟩ := ih h2
    exact ⟨b :: m', h3.cons b, rfl⟩
  | swap a b l =>
    obtain ⟨c, m, rfl, rfl, h2⟩ := List.map_eq_cons_iff.mp hx
    obtain ⟨d, m, rfl, rfl, rfl⟩ := List.map_eq_cons_iff.mp h2
    exact ⟨d :: c :: m, List.Perm.swap _ _ _, rfl⟩
  | trans h1 h2 ih1 ih2 =>
    obtain ⟨m2, h3, rfl⟩ := ih2 hx
    obtain ⟨m1, h4, rfl⟩ := ih1 rfl
    exact ⟨m1, h4.trans h3, rfl⟩

theorem subperm_map_lift {α β : Type} (f : α → β) {m : List α} {l : List β}
    (h : l.Subperm (m.map f)) : ∃ m' : List α, m'.Subperm m ∧ l = m'.map f := by
  obtain ⟨l', hp, hs⟩ := h
  obtain ⟨m2, hm2, rfl⟩ := List.sublist_map_iff.mp hs
  obtain ⟨m', hp', rfl⟩ := perm_map_lift f hp.symm
  exact ⟨m', ⟨m2, hp'.symm, hm2⟩, rfl⟩

variable {P K V A X : Type} [DecidableEq P] [DecidableEq K]

theorem valuesOf_map_values (f : V → A) (k : K) (col : List (K × V)) :
    valuesOf k (col.map fun e => (e.1, f e.2)) = (valuesOf k col).map f := by
  induction col with
  | nil => rfl
  | cons e col ih => simp only [List.map_cons, valuesOf_cons, ih]; split <;> rfl

/-- Sampling mapped values is mapping sampled values. -/
theorem lift_sampling {n : ℕ} (f : V → A) {col : List (K × V)} {out : List (K × List A)}
    (h : IsSampling n (col.map fun e => (e.1, f e.2)) out) :
    ∃ out' : List (K × List V), IsSampling n col out' ∧ out = out'.map fun e => (e.1, e.2.map f) := by
  have hl : ∀ e : K × List A, ∃ m : List V, e ∈ out → m.Subperm (valuesOf e.1 col) ∧ e.2 = m.map f := by
    intro e
    by_cases he : e ∈ out
    · have := h.values e he
      rw [valuesOf_map_values] at this
      obtain ⟨m, hm⟩ := subperm_map_lift f this
      exact ⟨m, fun _ => hm⟩
    · exact ⟨[], fun h => absurd h he⟩
  choose g hg using hl
  refine ⟨out.map fun e => (e.1, g e), ⟨?_, ?_, ?_, ?_⟩, ?_⟩
  · simpa [Function.comp_def] using h.nodup
  · intro k
    have := h.keys k
    simpa [Function.comp_def] using this
  · intro e he
    obtain ⟨e', he', rfl⟩ := List.mem_map.mp he
    exact (hg e' he').1
  · intro e he
    obtain ⟨e', he', rfl⟩ := List.mem_map.mp he
    have h1 := h.length e' he'
    rw [valuesOf_map_values, (hg e' he').2] at h1
    simpa using h1
  · rw [List.map_map]
    conv_lhs => rw [← List.map_id out]
    apply List.map_congr_left
    intro e he
    simp only [id, Function.comp_apply]
    rw [← (hg e he).2]

/-! ### Nested collections -/

/-- Flatten `(id, [(partition, x)])` to `((id, partition), x)`. -/
def nest (g : List (P × List (K × X))) : List ((P × K) × X) :=
  g.flatMap fun e => e.2.map fun x => ((e.1, x.1), x.2)

theorem mem_nest {g : List (P × List (K × X))} {y : (P × K) × X} :
    y ∈ nest g ↔ ∃ l, (y.1.1, l) ∈ g ∧ (y.1.2, y.2) ∈ l := by
  simp only [nest, List.mem_flatMap, List.mem_map]
  constructor
  · rintro ⟨e, he, x, hx, rfl⟩; exact ⟨e.2, he, hx⟩
  · rintro ⟨l, hl, hx⟩; exact ⟨_, hl, _, hx, rfl⟩

theorem nest_cons (e : P × List (K × X)) (g : List (P × List (K × X))) :
    nest (e :: g) = (e.2.map fun x => ((e.1, x.1), x.2)) ++ nest g := rfl

theorem nest_filter_of_not_mem {g : List (P × List (K × X))} {p : P} (h : p ∉ g.map Prod.fst) :
    (nest g).filter (fun y => y.1.1 = p) = [] := by
  rw [List.filter_eq_nil_iff]
  intro y hy
  obtain ⟨l, hl, -⟩ := mem_nest.mp hy
  simp only [decide_eq_true_eq]
  rintro rfl
  exact h (List.mem_map.mpr ⟨_, hl, rfl⟩)

theorem nest_filter {g : List (P × List (K × X))} (hn : (g.map Prod.fst).Nodup) {e} (he : e ∈ g) :
    (nest g).filter (fun y => y.1.1 = e.1) = e.2.map fun x => ((e.1, x.1), x.2) := by
  induction g with
  | nil => simp at he
  | cons x g ih =>
    simp only [List.map_cons, List.nodup_cons] at hn
    rw [nest_cons, List.filter_append]
    rcases List.mem_cons.mp he with rfl | he
    · rw [nest_filter_of_not_mem hn.1, List.append_nil, List.filter_eq_self]
      intro y hy; obtain ⟨z, -, rfl⟩ := List.mem_map.mp hy; simp
    · have hne : ¬ x.1 = e.1 := fun h => hn.1 (h ▸ List.mem_map_of_mem he)
      rw [ih hn.2 he]
      have : (x.2.map fun z => ((x.1, z.1), z.2)).filter (fun y => decide (y.1.1 = e.1)) = [] := by
        rw [List.filter_eq_nil_iff]
        intro y hy; obtain ⟨z, -, rfl⟩ := List.mem_map.mp hy; simp [hne]
      rw [this, List.nil_append]

theorem nest_keys_nodup {g : List (P × List (K × X))} (hn : (g.map Prod.fst).Nodup)
    (hi : ∀ e ∈ g, (e.2.map Prod.fst).Nodup) : ((nest g).map Prod.fst).Nodup := by
  induction g with
  | nil => simp [nest]
  | cons x g ih =>
    simp only [List.map_cons, List.nodup_cons] at hn
    rw [nest_cons, List.map_append, List.nodup_append]
    refine ⟨?_, ih hn.2 (fun e he => hi e (by simp [he])), ?_⟩
    · rw [List.map_map]
      have : (Prod.fst ∘ fun z : K × X => ((x.1, z.1), z.2)) = (fun k => (x.1, k)) ∘ Prod.fst := rfl
      rw [this, ← List.map_map]
      exact (hi x (by simp)).map (fun a b h => by simpa using h)
    · rintro a ha b hb rfl
      obtain ⟨y, hy, rfl⟩ := List.mem_map.mp ha
      obtain ⟨z, -, rfl⟩ := List.mem_map.mp hy
      obtain ⟨y', hy', h⟩ := List.mem_map.mp hb
      obtain ⟨l, hl, -⟩ := mem_nest.mp hy'
      rw [h] at hl
      exact hn.1 (List.mem_map.mpr ⟨_, hl, rfl⟩)

theorem nest_map (f : X → A) (g : List (P × List (K × X))) :
    nest (g.map fun e => (e.1, e.2.map fun x => (x.1, f x.2))) = (nest g).map fun y => (y.1, f y.2) := by
  induction g with
  | nil => rfl
  | cons x g ih => rw [List.map_cons, nest_cons, nest_cons, ih]; simp

/-! ### Rows, cells, partitions -/

/-- Rows keyed by `(id, partition)`. -/
def byPair (col : List (P × K × V)) : List ((P × K) × V) := col.map fun r => ((r.1, r.2.1), r.2.2)

theorem valuesOf_byPair (p : P) (k : K) (col : List (P × K × V)) :
    valuesOf (p, k) (byPair col) = cell p k col := by
  induction col with
  | nil => rfl
  | cons r col ih =>
    simp only [byPair, List.map_cons, valuesOf_cons, cell, List.filter_cons, Prod.mk.injEq] at ih ⊢
    by_cases h : r.1 = p ∧ r.2.1 = k <;> simp [h, ih]

theorem valuesOf_fst (p : P) (col : List (P × K × V)) :
    valuesOf p col = (col.filter fun r => r.1 = p).map Prod.snd := rfl

theorem valuesOf_valuesOf (p : P) (k : K) (col : List (P × K × V)) :
    valuesOf k (valuesOf p col) = cell p k col := by
  induction col with
  | nil => rfl
  | cons r col ih =>
    rw [valuesOf_cons]
    simp only [cell, List.filter_cons] at ih ⊢
    by_cases h : r.1 = p
    · by_cases h2 : r.2.1 = k
      · simp [h, h2, valuesOf_cons, ih]
      · simp [h, h2, valuesOf_cons, ih]
    · simp [h, ih]

theorem mem_partitionsOf {p : P} {k : K} {col : List (P × K × V)} :
    k ∈ partitionsOf p col ↔ (p, k) ∈ (byPair col).map Prod.fst := by
  simp only [partitionsOf, List.mem_dedup, List.mem_map, List.mem_filter, byPair, decide_eq_true_eq]
  constructor
  · rintro ⟨r, ⟨hr, rfl⟩, rfl⟩; exact ⟨_, ⟨r, hr, rfl⟩, rfl⟩
  · rintro ⟨_, ⟨r, hr, rfl⟩, h⟩; simp only [Prod.mk.injEq] at h; exact ⟨r, ⟨hr, h.1⟩, h.2⟩

theorem partitionsOf_nodup (p : P) (col : List (P × K × V)) : (partitionsOf p col).Nodup :=
  List.nodup_dedup _

theorem rowsBehind_eq (kept : List ((P × K) × List V)) :
    rowsBehind kept = (ungroup kept).map fun e => (e.1.1, e.1.2, e.2) := by
  simp [rowsBehind, ungroup, List.map_flatMap, Function.comp_def]

theorem byPair_rowsBehind (kept : List ((P × K) × List V)) :
    byPair (rowsBehind kept) = ungroup kept := by
  rw [rowsBehind_eq, byPair, List.map_map]
  conv_rhs => rw [← List.map_id (ungroup kept)]
  rfl

theorem of_byPair (col : List (P × K × V)) :
    (byPair col).map (fun e => (e.1.1, e.1.2, e.2)) = col := by
  rw [byPair, List.map_map]
  conv_rhs => rw [← List.map_id col]
  rfl

theorem cell_rowsBehind {kept : List ((P × K) × List V)} (hn : (kept.map Prod.fst).Nodup) {e}
    (he : e ∈ kept) : cell e.1.1 e.1.2 (rowsBehind kept) = e.2 := by
  rw [← valuesOf_byPair, byPair_rowsBehind]
  exact valuesOf_ungroup hn he

theorem cell_rowsBehind_of_not_mem {kept : List ((P × K) × List V)} {p k}
    (h : (p, k) ∉ kept.map Prod.fst) : cell p k (rowsBehind kept) = [] := by
  rw [← valuesOf_byPair, byPair_rowsBehind]
  exact valuesOf_ungroup_of_not_mem h

theorem perm_of_cell {a b : List (P × K × V)} (h : ∀ p k, (cell p k a).Perm (cell p k b)) : a.Perm b := by
  rw [← of_byPair a, ← of_byPair b]
  apply List.Perm.map
  apply perm_of_valuesOf
  rintro ⟨p, k⟩
  rw [valuesOf_byPair, valuesOf_byPair]; exact h p k

theorem subperm_of_cell {a b : List (P × K × V)} (h : ∀ p k, (cell p k a).Subperm (cell p k b)) :
    a.Subperm b := by
  rw [← of_byPair a, ← of_byPair b]
  refine subperm_map _ ?_
  apply subperm_of_valuesOf
  rintro ⟨p, k⟩
  rw [valuesOf_byPair, valuesOf_byPair]; exact h p k

theorem cell_filter_id (p q : P) (k : K) (col : List (P × K × V)) :
    cell p k (col.filter fun r => r.1 = q) = if p = q then cell p k col else [] := by
  unfold cell
  rw [List.filter_filter]
  split
  · rename_i h; subst h
    congr 1; apply List.filter_congr; intro r _; simp; tauto
  · rename_i h
    rw [List.map_eq_nil_iff, List.filter_eq_nil_iff]
    intro r _; simp; rintro rfl _ h'; exact h h'

/-- Build `KeptFrom` from its first three parts. -/
theorem keptFrom_of {col : List (P × K × V)} {kept : List ((P × K) × List V)}
    (h1 : (kept.map Prod.fst).Nodup) (h2 : ∀ e ∈ kept, e.2 ≠ [])
    (h3 : ∀ e ∈ kept, e.2.Subperm (cell e.1.1 e.1.2 col)) : KeptFrom col kept := by
  refine ⟨h1, h2, h3, ?_⟩
  apply subperm_of_cell
  intro p k
  by_cases hk : (p, k) ∈ kept.map Prod.fst
  · obtain ⟨e, he, hpk⟩ := List.mem_map.mp hk
    have e1 := cell_rowsBehind h1 he
    have e2 := h3 e he
    rw [hpk] at e1 e2
    rw [e1]; exact e2
  · rw [cell_rowsBehind_of_not_mem hk]; exact List.nil_subperm

theorem mem_of_cell {col : List (P × K × V)} {p k} (h : cell p k col ≠ []) : k ∈ partitionsOf p col := by
  rw [mem_partitionsOf, ← valuesOf_ne_nil, valuesOf_byPair]; exact h

theorem cell_ne_nil {col : List (P × K × V)} {p k} (h : k ∈ partitionsOf p col) : cell p k col ≠ [] := by
  rw [← valuesOf_byPair, valuesOf_ne_nil, ← mem_partitionsOf]; exact h

/-- If all partitions of `p` are kept with their complete cells then all rows of `p` are kept. -/
theorem rows_perm_of_full {col : List (P × K × V)} {kept : List ((P × K) × List V)} (p : P)
    (hk : KeptFrom col kept)
    (hlen : (kept.filter fun e => e.1.1 = p).length = (partitionsOf p col).length)
    (hfull : ∀ e ∈ kept, e.1.1 = p → e.2.length = (cell e.1.1 e.1.2 col).length) :
    ((rowsBehind kept).filter fun r => r.1 = p).Perm (col.filter fun r => r.1 = p) := by
  apply perm_of_cell
  intro q k
  rw [cell_filter_id, cell_filter_id]
  split
  · rename_i hq; subst hq
    -- keys of `p`
    have hnd : ((kept.filter fun e => e.1.1 = q).map fun e => e.1.2).Nodup := by
      have h1 : ((kept.filter fun e => e.1.1 = q).map Prod.fst).Nodup :=
        hk.once.sublist (List.filter_sublist.map _)
      have : ((kept.filter fun e => e.1.1 = q).map fun e => e.1.2)
          = ((kept.filter fun e => e.1.1 = q).map Prod.fst).map Prod.snd := by simp
      rw [this]
      apply h1.map_on
      rintro ⟨a1, a2⟩ ha ⟨b1, b2⟩ hb hab
      simp only [List.mem_map, List.mem_filter, decide_eq_true_eq] at ha hb
      obtain ⟨x, ⟨-, hx⟩, hx2⟩ := ha
      obtain ⟨y, ⟨-, hy⟩, hy2⟩ := hb
      simp only at hab
      rw [hx2] at hx; rw [hy2] at hy
      simp only at hx hy
      rw [hx, hy, hab]
    have hsub : ((kept.filter fun e => e.1.1 = q).map fun e => e.1.2) ⊆ partitionsOf q col := by
      intro k' hk'
      obtain ⟨e, he, rfl⟩ := List.mem_map.mp hk'
      simp only [List.mem_filter, decide_eq_true_eq] at he
      apply mem_of_cell
      intro hnil
      have := hk.fromInput e he.1
      rw [he.2, hnil] at this
      exact hk.nonempty e he.1 (List.subperm_nil.mp this)
    have hperm : ((kept.filter fun e => e.1.1 = q).map fun e => e.1.2).Perm (partitionsOf q col) :=
      (List.subperm_of_subset hnd hsub).perm_of_length_le (by simp [hlen])
    by_cases hmem : k ∈ partitionsOf q col
    · obtain ⟨e, he, rfl⟩ := List.mem_map.mp (hperm.mem_iff.mpr hmem)
      simp only [List.mem_filter, decide_eq_true_eq] at he
      obtain ⟨he, rfl⟩ := he
      rw [cell_rowsBehind hk.once he]
      exact (hk.fromInput e he).perm_of_length_le (Nat.le_of_eq (hfull e he rfl).symm)
    · have h1 : cell q k col = [] := by by_contra h; exact hmem (mem_of_cell h)
      have h2 : cell q k (rowsBehind kept) = [] := by
        apply cell_rowsBehind_of_not_mem
        intro h
        obtain ⟨e, he, heq⟩ := List.mem_map.mp h
        apply hmem
        apply hsub
        exact List.mem_map.mpr ⟨e, by simp [he, heq], by rw [heq]⟩
      rw [h1, h2]
  · exact List.Perm.refl _

end PDP
