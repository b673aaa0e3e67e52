import Mathlib.Data.List.Perm.Subperm
import Mathlib.Data.List.Dedup
import Mathlib.Data.List.Nodup
import Mathlib.Data.List.Count
import Mathlib.Data.List.Basic

/-! General lemmas about keyed lists and grouping. -/

namespace PDP

variable {K V : Type} [DecidableEq K]

/-- The values of a key, in order. -/
def valuesOf (k : K) (col : List (K × V)) : List V := (col.filter fun e => e.1 = k).map Prod.snd

@[simp] theorem valuesOf_nil (k : K) : valuesOf k ([] : List (K × V)) = [] := rfl

theorem valuesOf_append (k : K) (a b : List (K × V)) :
    valuesOf k (a ++ b) = valuesOf k a ++ valuesOf k b := by simp [valuesOf]

theorem valuesOf_cons (k : K) (e : K × V) (l : List (K × V)) :
    valuesOf k (e :: l) = if e.1 = k then e.2 :: valuesOf k l else valuesOf k l := by
  unfold valuesOf; rw [List.filter_cons]; split <;> simp_all

theorem mem_valuesOf {k : K} {v : V} {col : List (K × V)} : v ∈ valuesOf k col ↔ (k, v) ∈ col := by
  simp only [valuesOf, List.mem_map, List.mem_filter, decide_eq_true_eq]
  constructor
  · rintro ⟨⟨k', v'⟩, ⟨h, rfl⟩, rfl⟩; exact h
  · intro h; exact ⟨(k, v), ⟨h, rfl⟩, rfl⟩

theorem valuesOf_ne_nil {k : K} {col : List (K × V)} : valuesOf k col ≠ [] ↔ k ∈ col.map Prod.fst := by
  constructor
  · intro h
    obtain ⟨v, hv⟩ := List.exists_mem_of_ne_nil _ h
    exact List.mem_map.mpr ⟨_, mem_valuesOf.mp hv, rfl⟩
  · intro h
    obtain ⟨⟨k', v⟩, he, rfl⟩ := List.mem_map.mp h
    exact List.ne_nil_of_mem (mem_valuesOf.mpr he)

theorem valuesOf_perm {k : K} {a b : List (K × V)} (h : a.Perm b) :
    (valuesOf k a).Perm (valuesOf k b) := (h.filter _).map _

/-- Ungroup: the records of a grouped collection. -/
def ungroup (g : List (K × List V)) : List (K × V) := g.flatMap fun e => e.2.map fun v => (e.1, v)

theorem valuesOf_ungroup_of_not_mem {k : K} {g : List (K × List V)} (h : k ∉ g.map Prod.fst) :
    valuesOf k (ungroup g) = [] := by
  by_contra hne
  have := valuesOf_ne_nil.mp hne
  obtain ⟨e, he, rfl⟩ := List.mem_map.mp this
  obtain ⟨e', he', hv⟩ := List.mem_flatMap.mp he
  obtain ⟨v, -, rfl⟩ := List.mem_map.mp hv
  exact h (List.mem_map.mpr ⟨e', he', rfl⟩)

theorem valuesOf_map_same (k : K) (vs : List V) :
    valuesOf k (vs.map fun v => (k, v)) = vs := by
  induction vs with
  | nil => rfl
  | cons v vs ih => simp [valuesOf_cons, ih]

theorem valuesOf_map_other {k k' : K} (h : k' ≠ k) (vs : List V) :
    valuesOf k (vs.map fun v => (k', v)) = [] := by
  induction vs with
  | nil => rfl
  | cons v vs ih => simp [valuesOf_cons, ih, h]

theorem valuesOf_ungroup {g : List (K × List V)} (hn : (g.map Prod.fst).Nodup) {e} (he : e ∈ g) :
    valuesOf e.1 (ungroup g) = e.2 := by
  induction g with
  | nil => simp at he
  | cons x g ih =>
    simp only [List.map_cons, List.nodup_cons] at hn
    rw [ungroup, List.flatMap_cons, ← ungroup, valuesOf_append]
    rcases List.mem_cons.mp he with rfl | he
    · rw [valuesOf_map_same, valuesOf_ungroup_of_not_mem hn.1, List.append_nil]
    · have hne : x.1 ≠ e.1 := fun h => hn.1 (h ▸ List.mem_map_of_mem he)
      rw [valuesOf_map_other hne, List.nil_append, ih hn.2 he]

/-- Values per key determine a collection up to order. -/
theorem count_eq_count_valuesOf [BEq (K × V)] [LawfulBEq (K × V)] [BEq V] [LawfulBEq V] (e : K × V) (col : List (K × V)) :
    col.count e = (valuesOf e.1 col).count e.2 := by
  induction col with
  | nil => rfl
  | cons x col ih =>
    rw [valuesOf_cons, List.count_cons, ih]
    by_cases h : x.1 = e.1
    · rw [if_pos h, List.count_cons]
      congr 1
      have : (x == e) = (x.2 == e.2) := by
        rw [Bool.eq_iff_iff]; simp [Prod.ext_iff, h]
      rw [this]
    · rw [if_neg h]
      have : ¬ x = e := fun h' => h (by rw [h'])
      simp [this]

open Classical in
theorem subperm_of_valuesOf {a b : List (K × V)} (h : ∀ k, (valuesOf k a).Subperm (valuesOf k b)) :
    a.Subperm b := by
  rw [List.subperm_iff_count]
  intro e
  have hc := @count_eq_count_valuesOf K V _ instBEqOfDecidableEq inferInstance
    instBEqOfDecidableEq inferInstance e
  rw [hc, hc]
  exact (List.subperm_iff_count.mp (h e.1)) e.2

open Classical in
theorem perm_of_valuesOf {a b : List (K × V)} (h : ∀ k, (valuesOf k a).Perm (valuesOf k b)) :
    a.Perm b := by
  rw [List.perm_iff_count]
  intro e
  rw [count_eq_count_valuesOf, count_eq_count_valuesOf]
  exact (h e.1).count_eq e.2

/-- Contract of grouping by key: every key once, with exactly its values in some order. -/
structure IsGrouping (col : List (K × V)) (out : List (K × List V)) : Prop where
  nodup : (out.map Prod.fst).Nodup
  keys : ∀ k, k ∈ out.map Prod.fst ↔ k ∈ col.map Prod.fst
  values : ∀ e ∈ out, e.2.Perm (valuesOf e.1 col)

/-- Contract of sampling `n` values per key without replacement. -/
structure IsSampling (n : ℕ) (col : List (K × V)) (out : List (K × List V)) : Prop where
  nodup : (out.map Prod.fst).Nodup
  keys : ∀ k, k ∈ out.map Prod.fst ↔ k ∈ col.map Prod.fst
  values : ∀ e ∈ out, e.2.Subperm (valuesOf e.1 col)
  length : ∀ e ∈ out, e.2.length = min n (valuesOf e.1 col).length

theorem IsGrouping.perm {col : List (K × V)} {out} (h : IsGrouping col out) : (ungroup out).Perm col := by
  apply perm_of_valuesOf
  intro k
  by_cases hk : k ∈ out.map Prod.fst
  · obtain ⟨e, he, rfl⟩ := List.mem_map.mp hk
    rw [valuesOf_ungroup h.nodup he]; exact h.values e he
  · rw [valuesOf_ungroup_of_not_mem hk]
    have : valuesOf k col = [] := by
      by_contra hne; exact hk ((h.keys k).mpr (valuesOf_ne_nil.mp hne))
    rw [this]

theorem IsSampling.subperm {n} {col : List (K × V)} {out} (h : IsSampling n col out) :
    (ungroup out).Subperm col := by
  apply subperm_of_valuesOf
  intro k
  by_cases hk : k ∈ out.map Prod.fst
  · obtain ⟨e, he, rfl⟩ := List.mem_map.mp hk
    rw [valuesOf_ungroup h.nodup he]; exact h.values e he
  · rw [valuesOf_ungroup_of_not_mem hk]; exact List.nil_subperm

/-! ### Dictionary of lists (`collections.defaultdict(list)`) -/

/-- `d[k].append(v)` on a dictionary with insertion order. -/
def dictAppend : List (K × List V) → K → V → List (K × List V)
  | [], k, v => [(k, [v])]
  | (k', vs) :: t, k, v => if k' = k then (k', vs ++ [v]) :: t else (k', vs) :: dictAppend t k v

/-- `for k, v in col: d[k].append(v)` then `d.items()`. -/
def dictGroup (col : List (K × V)) : List (K × List V) :=
  col.foldl (fun d e => dictAppend d e.1 e.2) []

theorem map_fst_dictAppend (d : List (K × List V)) (k : K) (v : V) :
    (dictAppend d k v).map Prod.fst = if k ∈ d.map Prod.fst then d.map Prod.fst else d.map Prod.fst ++ [k] := by
  induction d with
  | nil => simp [dictAppend]
  | cons e d ih =>
    obtain ⟨k', vs⟩ := e
    unfold dictAppend
    by_cases h : k' = k
    · simp [h]
    · have h' : ¬ k = k' := fun e => h e.symm
      rw [if_neg h, List.map_cons, ih]
      simp only [List.map_cons, List.mem_cons, h', false_or]
      split <;> simp

theorem mem_dictAppend {d : List (K × List V)} {k : K} {v : V} (hn : (d.map Prod.fst).Nodup)
    {e} (he : e ∈ dictAppend d k v) :
    (e.1 ≠ k ∧ e ∈ d) ∨ (e.1 = k ∧ ((∃ vs, (k, vs) ∈ d ∧ e.2 = vs ++ [v]) ∨
      (k ∉ d.map Prod.fst ∧ e.2 = [v]))) := by
  induction d with
  | nil => simp only [dictAppend, List.mem_singleton] at he; subst he; simp
  | cons x d ih =>
    obtain ⟨k', vs⟩ := x
    simp only [List.map_cons, List.nodup_cons] at hn
    unfold dictAppend at he
    by_cases h : k' = k
    · subst h
      rw [if_pos rfl] at he
      rcases List.mem_cons.mp he with rfl | he
      · right; exact ⟨rfl, .inl ⟨vs, by simp, rfl⟩⟩
      · left
        refine ⟨fun h => hn.1 (h ▸ List.mem_map_of_mem he), by simp [he]⟩
    · rw [if_neg h] at he
      rcases List.mem_cons.mp he with rfl | he
      · left; exact ⟨h, by simp⟩
      · rcases ih hn.2 he with ⟨h1, h2⟩ | ⟨h1, ⟨ws, h2, h3⟩ | ⟨h2, h3⟩⟩
        · left; exact ⟨h1, by simp [h2]⟩
        · right; exact ⟨h1, .inl ⟨ws, by simp [h2], h3⟩⟩
        · right; refine ⟨h1, .inr ⟨?_, h3⟩⟩
          simp only [List.map_cons, List.mem_cons, not_or]
          exact ⟨fun e => h e.symm, h2⟩

theorem dictGroup_aux (col done : List (K × V)) (d : List (K × List V))
    (h1 : (d.map Prod.fst).Nodup) (h2 : ∀ k, k ∈ d.map Prod.fst ↔ k ∈ done.map Prod.fst)
    (h3 : ∀ e ∈ d, e.2 = valuesOf e.1 done) :
    let out := col.foldl (fun d e => dictAppend d e.1 e.2) d
    (out.map Prod.fst).Nodup ∧ (∀ k, k ∈ out.map Prod.fst ↔ k ∈ (done ++ col).map Prod.fst) ∧
      ∀ e ∈ out, e.2 = valuesOf e.1 (done ++ col) := by
  induction col generalizing done d with
  | nil => simpa using ⟨h1, by simpa using h2, by simpa using h3⟩
  | cons x col ih =>
    have := ih (done ++ [x]) (dictAppend d x.1 x.2) ?_ ?_ ?_
    · simpa using this
    · rw [map_fst_dictAppend]
      split
      · exact h1
      · rename_i h
        rw [List.nodup_append]
        refine ⟨h1, by simp, ?_⟩
        rintro a ha b hb rfl
        simp only [List.mem_singleton] at hb
        exact h (hb ▸ ha)
    · intro k
      rw [map_fst_dictAppend]
      have := h2 k
      have h2x := h2 x.1
      split
      · rename_i h
        rw [this, List.map_append, List.mem_append]
        constructor
        · exact .inl
        · rintro (h' | h')
          · exact h'
          · simp only [List.map_cons, List.map_nil, List.mem_singleton] at h'
            rw [h']; exact h2x.mp h
      · rw [List.map_append, List.mem_append, List.mem_append, this]
        simp
    · intro e he
      rw [valuesOf_append, valuesOf_cons, valuesOf_nil]
      rcases mem_dictAppend h1 he with ⟨g1, g2⟩ | ⟨g1, ⟨vs, g2, g3⟩ | ⟨g2, g3⟩⟩
      · rw [if_neg (Ne.symm g1), List.append_nil, ← h3 e g2]
      · rw [if_pos g1.symm, g3, g1]
        have := h3 _ g2
        simp only at this
        rw [this]
      · rw [if_pos g1.symm, g3, g1]
        have : valuesOf x.1 done = [] := by
          by_contra hne
          exact g2 ((h2 _).mpr (valuesOf_ne_nil.mp hne))
        rw [this]; rfl

theorem dictGroup_nodup (col : List (K × V)) : ((dictGroup col).map Prod.fst).Nodup :=
  (dictGroup_aux col [] [] (by simp) (by simp) (by simp)).1

theorem dictGroup_keys (col : List (K × V)) (k : K) :
    k ∈ (dictGroup col).map Prod.fst ↔ k ∈ col.map Prod.fst :=
  (dictGroup_aux col [] [] (by simp) (by simp) (by simp)).2.1 k

theorem dictGroup_values (col : List (K × V)) : ∀ e ∈ dictGroup col, e.2 = valuesOf e.1 col :=
  (dictGroup_aux col [] [] (by simp) (by simp) (by simp)).2.2

theorem isGrouping_dictGroup (col : List (K × V)) : IsGrouping col (dictGroup col) :=
  ⟨dictGroup_nodup col, dictGroup_keys col, fun e he => by rw [dictGroup_values col e he]⟩

theorem mem_dictGroup {col : List (K × V)} {k : K} {vs : List V} :
    (k, vs) ∈ dictGroup col ↔ k ∈ col.map Prod.fst ∧ vs = valuesOf k col := by
  constructor
  · intro h
    exact ⟨(dictGroup_keys col k).mp (List.mem_map.mpr ⟨_, h, rfl⟩), dictGroup_values col _ h⟩
  · rintro ⟨h, rfl⟩
    obtain ⟨e, he, rfl⟩ := List.mem_map.mp ((dictGroup_keys col k).mpr h)
    have := dictGroup_values col e he
    rw [← this]; exact he

end PDP
