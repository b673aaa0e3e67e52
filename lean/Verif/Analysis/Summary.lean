import Verif.Lib.Ops
import Verif.Engine.Entries
import Mathlib.Tactic.Set

/-!
# Summary of public partitions (`analysis/dataset_summary.py`)
-/

set_option linter.unusedVariables false

namespace PDP.Analysis.PublicSummary

/-! ### Model -/

/-- The constants of `dataset_summary.py:28-30`. -/
inductive PType where
  | datasetPublic
  | emptyPublic
  | datasetNonPublic
deriving DecidableEq

/-- `PublicPartitionsSummary` (`dataset_summary.py:21-25`). -/
structure Summary where
  datasetPublic : ℕ
  datasetNonPublic : ℕ
  emptyPublic : ℕ
deriving DecidableEq

/-- `process_fn` (`dataset_summary.py:74-83`).  The empty list (`a[0]` raises `IndexError`) is `none`. -/
def processFn (a : List Bool) : Option PType :=
  if a.length = 2 then some .datasetPublic
  else match a with
    | [] => none
    | true :: _ => some .datasetNonPublic
    | false :: _ => some .emptyPublic

/-- `to_summary` (`dataset_summary.py:95-106`). -/
def toSummary (l : List (PType × ℕ)) : Summary :=
  l.foldl (fun s e => match e.1 with
    | .datasetPublic => { s with datasetPublic := e.2 }
    | .datasetNonPublic => { s with datasetNonPublic := e.2 }
    | .emptyPublic => { s with emptyPublic := e.2 }) ⟨0, 0, 0⟩

/-- `compute_public_partitions_summary` (`dataset_summary.py:33-108`) on the partition keys of the rows; the result is the
one element of the returned collection, `none` if `process_fn` raises.  `O` are the operations of the backend. -/
def summary {K : Type} [DecidableEq K] (O : Ops) (data pub : List K) : Option Summary := do
  let ds := (O.distinct data).map fun x => (x, true)
  let ps := pub.map fun x => (x, false)
  let groups := O.group (ds ++ ps)
  let types ← groups.mapM fun e => processFn e.2
  return toSummary (O.countPerElement types)

/-! ### Lemmas -/

theorem valuesOf_pair {K A : Type} [DecidableEq K] (k : K) (l : List K) (a : A) :
    valuesOf k (l.map fun x => (x, a)) = List.replicate (l.count k) a := by
  induction l with
  | nil => rfl
  | cons x l ih =>
    rw [List.map_cons, valuesOf_cons, List.count_cons]
    by_cases h : x = k
    · simp [h, ih, List.replicate_succ]
    · simp [h, ih]

theorem mapM_some {A B : Type} {f : A → Option B} {g : A → B} : ∀ (l : List A), (∀ x ∈ l, f x = some (g x)) →
    l.mapM f = some (l.map g)
  | [], _ => rfl
  | x :: l, h => by
    rw [List.mapM_cons, h x (by simp), mapM_some l fun y hy => h y (by simp [hy])]; rfl

/-- Entry of a key in a list of counts, with a default. -/
def look (l : List (PType × ℕ)) (t : PType) (d : ℕ) : ℕ := (valuesOf t l).getLastD d

theorem foldl_toSummary (l : List (PType × ℕ)) (s : Summary) :
    l.foldl (fun s e => match e.1 with
      | .datasetPublic => { s with datasetPublic := e.2 }
      | .datasetNonPublic => { s with datasetNonPublic := e.2 }
      | .emptyPublic => { s with emptyPublic := e.2 }) s
    = ⟨look l .datasetPublic s.datasetPublic, look l .datasetNonPublic s.datasetNonPublic, look l .emptyPublic s.emptyPublic⟩ := by
  induction l generalizing s with
  | nil => rfl
  | cons e l ih =>
    obtain ⟨t, n⟩ := e
    rw [List.foldl_cons, ih]
    cases t <;> simp [look, valuesOf_cons, List.getLast?_cons]

theorem look_count {col : List PType} {out : List (PType × ℕ)} (h : IsCount col out) (t : PType) :
    look out t 0 = col.count t := by
  unfold look
  rcases PDP.Engine.valuesOf_of_nodup h.nodup t with h1 | ⟨x, h1, hx⟩
  · rw [h1]
    have : t ∉ out.map Prod.fst := by
      rw [← valuesOf_ne_nil]; simp [h1]
    rw [h.keys] at this
    rw [List.count_eq_zero_of_not_mem this]; rfl
  · rw [h1]
    have hm : (t, x) ∈ out := mem_valuesOf.mp (by simp [h1])
    simpa using h.values _ hm

theorem toSummary_count {col : List PType} {out : List (PType × ℕ)} (h : IsCount col out) :
    toSummary out = ⟨col.count .datasetPublic, col.count .datasetNonPublic, col.count .emptyPublic⟩ := by
  unfold toSummary
  rw [foldl_toSummary]
  simp only [look_count h]

theorem group_values {K : Type} [DecidableEq K] (O : Ops) (hO : O.Lawful) (data pub : List K) (k : K) :
    valuesOf k (((O.distinct data).map fun x => (x, true)) ++ pub.map fun x => (x, false))
      = (if k ∈ data then [true] else []) ++ List.replicate (pub.count k) false := by
  rw [valuesOf_append, valuesOf_pair, valuesOf_pair]
  congr 1
  have h := hO.distinct data
  split
  · rename_i hk
    rw [List.count_eq_one_of_mem h.nodup ((h.mem k).mpr hk)]; rfl
  · rename_i hk
    rw [List.count_eq_zero_of_not_mem fun hm => hk ((h.mem k).mp hm)]; rfl

/-- The type given to every partition. -/
theorem summary_types {K : Type} [DecidableEq K] (O : Ops) (hO : O.Lawful) (data pub : List K) :
    ∃ (keys : List K) (ty : K → PType), keys.Nodup ∧ (∀ k, k ∈ keys ↔ k ∈ data ∨ k ∈ pub) ∧
      (∀ k ∈ keys, (k ∈ data → pub.count k = 0 → ty k = .datasetNonPublic) ∧
        (k ∈ data → pub.count k = 1 → ty k = .datasetPublic) ∧
        (k ∈ data → pub.count k ≥ 2 → ty k ≠ .datasetPublic) ∧
        (k ∉ data → pub.count k = 2 → ty k = .datasetPublic) ∧
        (k ∉ data → pub.count k ≠ 2 → ty k = .emptyPublic)) ∧
      summary O data pub = some ⟨(keys.map ty).count .datasetPublic, (keys.map ty).count .datasetNonPublic,
        (keys.map ty).count .emptyPublic⟩ := by
  have hg := hO.group (((O.distinct data).map fun x => (x, true)) ++ pub.map fun x => (x, false))
  set groups := O.group (((O.distinct data).map fun x => (x, true)) ++ pub.map fun x => (x, false)) with hgr
  have hkeys : ∀ k, k ∈ groups.map Prod.fst ↔ k ∈ data ∨ k ∈ pub := by
    intro k
    rw [hg.keys, List.map_append, List.mem_append, List.map_map, List.map_map]
    simp [Function.comp_def, (hO.distinct data).mem]
  -- the group of every key
  have hex : ∀ k, ∃ t : PType, ∀ e ∈ groups, e.1 = k → processFn e.2 = some t := by
    intro k
    by_cases hk : k ∈ groups.map Prod.fst
    · obtain ⟨e, he, rfl⟩ := List.mem_map.mp hk
      have hne : e.2 ≠ [] := by
        have := valuesOf_ne_nil.mpr ((hg.keys e.1).mp hk)
        intro h
        have h2 := hg.values e he
        rw [h] at h2
        exact this h2.nil_eq.symm
      have huniq : ∀ e' ∈ groups, e'.1 = e.1 → e' = e := fun e' he' h =>
        List.inj_on_of_nodup_map hg.nodup he' he h
      cases hp : processFn e.2 with
      | none =>
        exfalso
        revert hp hne
        generalize e.2 = a
        unfold processFn
        intro hne hp
        rcases a with _ | ⟨b, a⟩
        · exact hne rfl
        · cases b <;> simp at hp <;> split at hp <;> simp at hp
      | some t => exact ⟨t, fun e' he' h => by rw [huniq e' he' h, hp]⟩
    · exact ⟨.emptyPublic, fun e he h => absurd (List.mem_map.mpr ⟨e, he, h⟩) hk⟩
  choose ty hty using hex
  refine ⟨groups.map Prod.fst, ty, hg.nodup, hkeys, ?_, ?_⟩
  · intro k hk
    obtain ⟨e, he, rfl⟩ := List.mem_map.mp hk
    have hp := hg.values e he
    rw [group_values O hO data pub e.1] at hp
    have ht := hty e.1 e he rfl
    have hl := hp.length_eq
    refine ⟨?_, ?_, ?_, ?_, ?_⟩
    · intro hd hc
      rw [hc, if_pos hd] at hp
      have : e.2 = [true] := by simpa using hp
      rw [this] at ht; simpa [processFn] using ht.symm
    · intro hd hc
      rw [hc, if_pos hd] at hl
      rw [processFn.eq_def, if_pos (by simpa using hl)] at ht
      simpa using ht.symm
    · intro hd hc h2
      rw [if_pos hd] at hl
      simp only [List.length_append, List.length_replicate, List.length_cons, List.length_nil] at hl
      rw [processFn.eq_def, if_neg (by omega), h2] at ht
      split at ht <;> simp at ht
    · intro hd hc
      rw [hc, if_neg hd] at hl
      rw [processFn.eq_def, if_pos (by simpa using hl)] at ht
      simpa using ht.symm
    · intro hd hc
      rw [if_neg hd] at hp hl
      have h2 : e.2 = List.replicate (pub.count e.1) false := by
        rw [List.nil_append] at hp; exact List.perm_replicate.mp hp
      have h3 : 0 < pub.count e.1 := by
        rcases (hkeys e.1).mp hk with h | h
        · exact absurd h hd
        · exact List.count_pos_iff.mpr h
      obtain ⟨n, hn⟩ : ∃ n, pub.count e.1 = n + 1 := ⟨_, (Nat.succ_pred_eq_of_pos h3).symm⟩
      rw [h2, processFn.eq_def, if_neg (by simpa using hc), hn, List.replicate_succ] at ht
      simpa using ht.symm
  · unfold summary
    simp only [← hgr]
    rw [mapM_some (g := fun e => ty e.1) groups fun e he => hty e.1 e he rfl]
    show some (toSummary _) = _
    rw [toSummary_count (hO.count _), List.map_map]
    rfl

theorem count_filter {K : Type} [DecidableEq K] (keys : List K) (ty : K → PType) (t : PType) (l : List K) (p : K → Bool)
    (hn : keys.Nodup) (hl : l.Nodup) (h : ∀ k, (k ∈ keys ∧ ty k = t) ↔ (k ∈ l ∧ p k = true)) :
    (keys.map ty).count t = (l.filter p).length := by
  have h1 : (keys.map ty).count t = (keys.filter fun k => decide (ty k = t)).length := by
    rw [List.count_eq_length_filter, List.filter_map, List.length_map]
    congr 1
  rw [h1]
  apply List.Perm.length_eq
  apply perm_of_nodup (hn.filter _) (hl.filter _)
  intro x
  rw [List.mem_filter, List.mem_filter, ← h x]
  simp

/-! ### Properties -/

/-- **C48.** If no public partition is listed twice, the summary of any dataset on any backend which meets its contract is
right: the number of distinct partitions of the dataset which are public, of those which are not, and of the public
partitions without data. -/
theorem C48_summary {K : Type} [DecidableEq K] (O : Ops) (hO : O.Lawful) (data pub : List K) (hpub : pub.Nodup) :
    summary O data pub = some
      { datasetPublic := (data.dedup.filter fun k => k ∈ pub).length
        datasetNonPublic := (data.dedup.filter fun k => k ∉ pub).length
        emptyPublic := (pub.filter fun k => k ∉ data).length } := by
  obtain ⟨keys, ty, hn, hk, ht, hs⟩ := summary_types O hO data pub
  have hc : ∀ k, pub.count k = if k ∈ pub then 1 else 0 := fun k => by
    split
    · rename_i h; exact List.count_eq_one_of_mem hpub h
    · rename_i h; exact List.count_eq_zero_of_not_mem h
  have htt : ∀ k ∈ keys, ty k = if k ∈ data then (if k ∈ pub then .datasetPublic else .datasetNonPublic) else .emptyPublic := by
    intro k hkk
    obtain ⟨h1, h2, h3, h4, h5⟩ := ht k hkk
    rw [hc k] at h1 h2 h3 h4 h5
    by_cases hd : k ∈ data <;> by_cases hp : k ∈ pub <;> simp_all
  rw [hs]
  congr 1
  have hd := List.nodup_dedup data
  rw [Summary.mk.injEq]
  refine ⟨count_filter _ _ _ _ _ hn hd ?_, count_filter _ _ _ _ _ hn hd ?_, count_filter _ _ _ _ _ hn hpub ?_⟩
  all_goals
    intro k
    by_cases hkk : k ∈ keys
    · rw [htt k hkk]
      by_cases h1 : k ∈ data <;> by_cases h2 : k ∈ pub <;> simp_all
    · have := mt (hk k).mpr hkk
      push Not at this
      simp [hkk, this]

example : summary localOps [1, 2, 2, 3] [2, 3, 4, 5] = some ⟨2, 1, 2⟩ := by decide +kernel
example : [2, 3, 4, 5].Nodup := by decide

/-- **C48, duplicates.** In general the first number is the number of dataset partitions listed exactly once *plus* the number
of public partitions without data which are listed exactly twice, and the three numbers add up to the number of distinct
partitions.  So a repeated public partition which has data is never counted as present, and one without data which is
listed twice always is. -/
theorem C48_duplicates {K : Type} [DecidableEq K] (O : Ops) (hO : O.Lawful) (data pub : List K) :
    ∃ s, summary O data pub = some s ∧
      s.datasetPublic = (data.dedup.filter fun k => pub.count k = 1).length
        + (pub.dedup.filter fun k => k ∉ data ∧ pub.count k = 2).length ∧
      s.datasetPublic + s.datasetNonPublic + s.emptyPublic = (data ++ pub).dedup.length := by
  obtain ⟨keys, ty, hn, hk, ht, hs⟩ := summary_types O hO data pub
  refine ⟨_, hs, ?_, ?_⟩
  · have hdis : (data.dedup ++ pub.dedup.filter fun k => k ∉ data).Nodup := by
      rw [List.nodup_append]
      refine ⟨List.nodup_dedup _, (List.nodup_dedup _).filter _, ?_⟩
      rintro a ha b hb rfl
      simp only [List.mem_filter, decide_eq_true_eq] at hb
      exact hb.2 (List.mem_dedup.mp ha)
    show (keys.map ty).count .datasetPublic = _
    rw [count_filter keys ty .datasetPublic _ (fun k => (k ∈ data ∧ pub.count k = 1) ∨ (k ∉ data ∧ pub.count k = 2)) hn hdis]
    · rw [List.filter_append, List.length_append, List.filter_filter]
      congr 2
      · apply List.filter_congr
        intro x hx
        have := List.mem_dedup.mp hx
        simp [this]
      · apply List.filter_congr
        intro x hx
        by_cases h : x ∈ data <;> simp [h]
    · intro k
      by_cases hkk : k ∈ keys
      · obtain ⟨h1, h2, h3, h4, h5⟩ := ht k hkk
        have hin := (hk k).mp hkk
        have hl : k ∈ data.dedup ++ pub.dedup.filter (fun k => k ∉ data) := by
          by_cases hd : k ∈ data
          · simp [hd]
          · simp [hd, hin.resolve_left hd]
        have : (ty k = .datasetPublic) ↔ ((k ∈ data ∧ pub.count k = 1) ∨ (k ∉ data ∧ pub.count k = 2)) := by
          by_cases hd : k ∈ data
          · simp only [hd, true_and, not_true, false_and, or_false]
            constructor
            · intro h
              by_contra hne
              rcases Nat.lt_or_ge (pub.count k) 2 with hlt | hge
              · have := h1 hd (by omega); rw [h] at this; cases this
              · exact h3 hd hge h
            · exact h2 hd
          · simp only [hd, false_and, false_or, not_false_iff, true_and]
            constructor
            · intro h
              by_contra hne
              have := h5 hd hne; rw [h] at this; cases this
            · exact h4 hd
        simp only [hkk, hl, true_and, this, decide_eq_true_eq]
      · have := mt (hk k).mpr hkk
        push Not at this
        simp [hkk, this]
  · have hperm : keys.Perm (data ++ pub).dedup := perm_of_nodup hn (List.nodup_dedup _) fun x => by
      rw [hk x, List.mem_dedup, List.mem_append]
    rw [← hperm.length_eq]
    show (keys.map ty).count .datasetPublic + (keys.map ty).count .datasetNonPublic + (keys.map ty).count .emptyPublic = _
    clear hs hperm ht hk hn
    induction keys with
    | nil => rfl
    | cons k keys ih =>
      simp only [List.map_cons, List.count_cons, List.length_cons]
      cases ty k <;> simp at ih ⊢ <;> omega

/-- A public partition without data, listed twice, is reported as a partition of the dataset. -/
example : summary localOps ([] : List ℕ) [7, 7] = some ⟨1, 0, 0⟩ := by decide +kernel

/-- The public partition 1 has data but is listed twice: it is reported as not public. -/
example : summary localOps [1] [1, 1] = some ⟨0, 1, 0⟩ := by decide +kernel

end PDP.Analysis.PublicSummary
