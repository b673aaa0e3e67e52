import Verif.Engine.Partitions
import Mathlib.Data.List.Sort

/-!
# Deterministic backend operations

Contracts of the keyed operations of `pipeline_backend.py` (lines 29-195 document them) that the analysis code
uses, and the implementation of `LocalBackend`.  The order of the outputs and of the reduction is left open.
-/

namespace PDP

open PDP.Engine (IsCombine localCombine localCombine_lawful)

/-- Contract of `count_per_element`. -/
structure IsCount {α : Type} [DecidableEq α] (col : List α) (out : List (α × ℕ)) : Prop where
  nodup : (out.map Prod.fst).Nodup
  keys : ∀ a, a ∈ out.map Prod.fst ↔ a ∈ col
  values : ∀ e ∈ out, e.2 = col.count e.1

/-- Contract of `distinct`. -/
structure IsDistinct {α : Type} (col out : List α) : Prop where
  nodup : out.Nodup
  mem : ∀ a, a ∈ out ↔ a ∈ col

/-- Contract of `sum_per_key`. -/
structure IsSum {K : Type} [DecidableEq K] (col out : List (K × ℚ)) : Prop where
  nodup : (out.map Prod.fst).Nodup
  keys : ∀ k, k ∈ out.map Prod.fst ↔ k ∈ col.map Prod.fst
  values : ∀ e ∈ out, e.2 = (valuesOf e.1 col).sum

/-- The operations. -/
structure Ops where
  group : {K V : Type} → [DecidableEq K] → List (K × V) → List (K × List V)
  countPerElement : {α : Type} → [DecidableEq α] → List α → List (α × ℕ)
  distinct : {α : Type} → [DecidableEq α] → List α → List α
  sumPerKey : {K : Type} → [DecidableEq K] → List (K × ℚ) → List (K × ℚ)
  reducePerKey : {K A : Type} → [DecidableEq K] → (A → A → A) → List (K × A) → List (K × A)

/-- The operations meet their contracts. -/
structure Ops.Lawful (O : Ops) : Prop where
  group : ∀ {K V : Type} [DecidableEq K] (col : List (K × V)), IsGrouping col (O.group col)
  count : ∀ {α : Type} [DecidableEq α] (col : List α), IsCount col (O.countPerElement col)
  distinct : ∀ {α : Type} [DecidableEq α] (col : List α), IsDistinct col (O.distinct col)
  sum : ∀ {K : Type} [DecidableEq K] (col : List (K × ℚ)), IsSum col (O.sumPerKey col)
  reduce : ∀ {K A : Type} [DecidableEq K] (f : A → A → A) (col : List (K × A)), IsCombine f col (O.reducePerKey f col)

/-- `pipeline_backend.py:503-512, 549-580`: `LocalBackend.group_by_key`, `count_per_element` (a `Counter`),
`distinct` (a `set`; any order), `sum_per_key`, `reduce_per_key`. -/
def localOps : Ops where
  group := fun col => dictGroup col
  countPerElement := fun col => (dictGroup (col.map fun a => (a, ()))).map fun e => (e.1, e.2.length)
  distinct := fun col => col.dedup
  sumPerKey := fun col => (dictGroup col).map fun e => (e.1, e.2.sum)
  reducePerKey := fun f col => localCombine f col

theorem valuesOf_map_unit {α : Type} [DecidableEq α] (a : α) (col : List α) :
    (valuesOf a (col.map fun a => (a, ()))).length = col.count a := by
  induction col with
  | nil => rfl
  | cons x col ih =>
    rw [List.map_cons, valuesOf_cons, List.count_cons]
    by_cases h : x = a
    · simp [h, ih]
    · simp [h, ih]

theorem localOps_lawful : localOps.Lawful where
  group := fun col => isGrouping_dictGroup col
  count := by
    intro α _ col
    refine ⟨?_, ?_, ?_⟩
    · simp only [localOps, List.map_map, Function.comp_def]
      exact dictGroup_nodup _
    · intro a
      have := dictGroup_keys (col.map fun a => (a, ())) a
      simp only [localOps, List.map_map, Function.comp_def] at this ⊢
      simpa using this
    · intro e he
      obtain ⟨x, hx, rfl⟩ := List.mem_map.mp he
      show x.2.length = _
      rw [dictGroup_values _ x hx, valuesOf_map_unit]
  distinct := fun col => ⟨List.nodup_dedup col, fun a => List.mem_dedup⟩
  sum := by
    intro K _ col
    refine ⟨?_, ?_, ?_⟩
    · simp only [localOps, List.map_map, Function.comp_def]
      exact dictGroup_nodup _
    · intro a
      have := dictGroup_keys col a
      simp only [localOps, List.map_map, Function.comp_def]
      exact this
    · intro e he
      obtain ⟨x, hx, rfl⟩ := List.mem_map.mp he
      show x.2.sum = _
      rw [dictGroup_values _ x hx]
  reduce := fun f col => localCombine_lawful f col

/-! ### Consequences of the contracts -/

/-- Two lists without duplicates and with the same members are permutations. -/
theorem perm_of_nodup {α : Type} {a b : List α} (ha : a.Nodup) (hb : b.Nodup) (h : ∀ x, x ∈ a ↔ x ∈ b) : a.Perm b :=
  (List.perm_ext_iff_of_nodup ha hb).mpr h

theorem IsDistinct.perm {α : Type} {a b : List α} {x y : List α} (h1 : IsDistinct a x) (h2 : IsDistinct b y)
    (h : ∀ e, e ∈ a ↔ e ∈ b) : x.Perm y :=
  perm_of_nodup h1.nodup h2.nodup fun e => by rw [h1.mem, h2.mem, h]

/-- Two keyed lists with the same distinct keys and values given by the key are permutations. -/
theorem perm_of_keys {K A : Type} {a b : List (K × A)} (ha : (a.map Prod.fst).Nodup) (hb : (b.map Prod.fst).Nodup)
    (h : ∀ k, k ∈ a.map Prod.fst ↔ k ∈ b.map Prod.fst) (f : K → A) (hfa : ∀ e ∈ a, e.2 = f e.1)
    (hfb : ∀ e ∈ b, e.2 = f e.1) : a.Perm b := by
  apply perm_of_nodup ha.of_map hb.of_map
  intro ⟨k, v⟩
  constructor
  · intro hx
    obtain ⟨⟨k', v'⟩, he, rfl⟩ := List.mem_map.mp ((h k).mp (List.mem_map.mpr ⟨_, hx, rfl⟩))
    have h1 := hfa _ hx
    have h2 := hfb _ he
    simp only at h1 h2
    rw [h1, ← h2]; exact he
  · intro hx
    obtain ⟨⟨k', v'⟩, he, rfl⟩ := List.mem_map.mp ((h k).mpr (List.mem_map.mpr ⟨_, hx, rfl⟩))
    have h1 := hfb _ hx
    have h2 := hfa _ he
    simp only at h1 h2
    rw [h1, ← h2]; exact he

theorem IsCount.perm {α : Type} [DecidableEq α] {a b : List α} {x y} (h1 : IsCount a x) (h2 : IsCount b y)
    (h : a.Perm b) : x.Perm y :=
  perm_of_keys h1.nodup h2.nodup (fun k => by rw [h1.keys, h2.keys, h.mem_iff]) (fun k => a.count k) h1.values
    fun e he => by rw [h2.values e he, h.count_eq]

theorem IsSum.perm {K : Type} [DecidableEq K] {a b : List (K × ℚ)} {x y} (h1 : IsSum a x) (h2 : IsSum b y)
    (h : a.Perm b) : x.Perm y :=
  perm_of_keys h1.nodup h2.nodup (fun k => by rw [h1.keys, h2.keys, (h.map Prod.fst).mem_iff])
    (fun k => (valuesOf k a).sum) h1.values
    fun e he => by rw [h2.values e he]; exact ((valuesOf_perm h).sum_eq).symm

/-- Repeating every counted element gives the collection back. -/
theorem IsCount.expand {α : Type} [DecidableEq α] {col : List α} {out} (h : IsCount col out) :
    (out.flatMap fun e => List.replicate e.2 e.1).Perm col := by
  rw [List.perm_iff_count]
  intro a
  have key : ∀ l : List (α × ℕ), (l.map Prod.fst).Nodup → (∀ e ∈ l, e.2 = col.count e.1) →
      (l.flatMap fun e => List.replicate e.2 e.1).count a = if a ∈ l.map Prod.fst then col.count a else 0 := by
    intro l hn hv
    induction l with
    | nil => simp
    | cons e l ih =>
      simp only [List.map_cons, List.nodup_cons] at hn
      rw [List.flatMap_cons, List.count_append, ih hn.2 (fun x hx => hv x (List.mem_cons_of_mem _ hx)),
        List.count_replicate]
      by_cases he : e.1 = a
      · subst he
        simp [hn.1, hv e List.mem_cons_self]
      · have he' : ¬ a = e.1 := fun hh => he hh.symm
        have hb : (e.1 == a) = false := by simpa using he
        simp only [hb, Bool.false_eq_true, if_false, zero_add, List.map_cons, List.mem_cons, he', false_or]
  rw [key out h.nodup h.values]
  by_cases ha : a ∈ col
  · rw [if_pos ((h.keys a).mpr ha)]
  · rw [if_neg (fun hh => ha ((h.keys a).mp hh)), List.count_eq_zero_of_not_mem ha]

theorem IsCount.pos {α : Type} [DecidableEq α] {col : List α} {out} (h : IsCount col out) : ∀ e ∈ out, 0 < e.2 := by
  intro e he
  rw [h.values e he, List.count_pos_iff]
  exact (h.keys e.1).mp (List.mem_map.mpr ⟨e, he, rfl⟩)

end PDP
