import Verif.Backend.Sampling
import Verif.Engine.Partitions

/-!
# Sampling on Spark with the placement of the rows

`pipeline_backend.py:446-449` `SparkRDDBackend.sample_fixed_per_key`.  `RDD.reduceByKey(f)` (PySpark, not part of the
repository) reduces the values of a key first inside each block of rows that a worker holds, in order, and then the results
of the blocks.  The shape of the reduction hence depends on where the rows are placed.
-/

set_option linter.unusedVariables false

namespace PDP.Backend

open PDP.Engine (MergeTree reduce)

variable {K V : Type} [DecidableEq K]

/-! ### Model -/

/-- A placement of the rows: blocks of `c` consecutive rows, the last one may be shorter (one block for `c = 0`). -/
def blocks {α : Type} (c : ℕ) (l : List α) : List (List α) :=
  if h : l = [] then [] else if hc : c = 0 then [l] else l.take c :: blocks c (l.drop c)
termination_by l.length
decreasing_by
  have := List.length_pos_iff.mpr h
  simp only [List.length_drop]
  omega

/-- `reduceByKey` for one key: the values inside each block, then the results of the blocks which have a value. -/
def sparkTree (bs : List (List (K × V))) (k : K) : Option (MergeTree V) :=
  reduce .node (bs.filterMap fun b => reduce .node ((valuesOf k b).map .leaf))

/-- The random choices: positions chosen by `random.sample(l, n)` for a list of length `len`, by stage, key and place in the
reduction of the values of the key (the path from the last step; `false` is the left argument). -/
structure SparkRng where
  pick : {K : Type} → (stage : String) → (key : K) → (path : List Bool) → (len n : ℕ) → List ℕ
  nodup : ∀ {K : Type} (stage : String) (key : K) (path : List Bool) (len n : ℕ), (pick stage key path len n).Nodup
  lt : ∀ {K : Type} (stage : String) (key : K) (path : List Bool) (len n : ℕ), ∀ i ∈ pick stage key path len n, i < len
  length : ∀ {K : Type} (stage : String) (key : K) (path : List Bool) (len n : ℕ), n ≤ len →
    (pick stage key path len n).length = n

/-- `lambda x, y: random.sample(x + y, min(len(x) + len(y), n))` on a reduction of the lists `[v]`
(`pipeline_backend.py:448-449`). -/
def sampleTree (pick : List Bool → ℕ → ℕ → List ℕ) (n : ℕ) : List Bool → MergeTree V → List V
  | _, .leaf v => [v]
  | path, .node l r =>
    let x := sampleTree pick n (false :: path) l
    let y := sampleTree pick n (true :: path) r
    takeIndices (x ++ y) (pick path (x.length + y.length) (min (x.length + y.length) n))

/-- `pipeline_backend.py:446-449` `sample_fixed_per_key` for rows in blocks of `c`.  (The order of the keys is free.) -/
def sparkSample (rng : SparkRng) (c : ℕ) (stage : String) (col : List (K × V)) (n : ℕ) : List (K × List V) :=
  (dictGroup col).filterMap fun e =>
    (sparkTree (blocks c col) e.1).map fun t => (e.1, sampleTree (rng.pick stage e.1) n [] t)

/-- `pipeline_backend.py:457-462` `combine_accumulators_per_key` and `464-465` `reduce_per_key` for rows in blocks of `c`. -/
def sparkCombine {A : Type} (c : ℕ) (merge : A → A → A) (col : List (K × A)) : List (K × A) :=
  (dictGroup col).filterMap fun e => (sparkTree (blocks c col) e.1).map fun t => (e.1, t.eval merge)

/-- `SparkRDDBackend`: the sampling above; grouping in some order; `other` are the random choices inside of
`sampling_utils.choose_from_list_without_replacement`. -/
def sparkBackend (rng : SparkRng) (other : Rng) (c : ℕ) : Backend where
  groupByKey := dictGroup
  sampleFixedPerKey := sparkSample rng c
  choose := chooseFromList other

/-! ### The operations meet their contracts -/

theorem blocks_nil {α : Type} (c : ℕ) : blocks c ([] : List α) = [] := by
  rw [blocks]; simp

theorem blocks_cons {α : Type} {c : ℕ} (hc : c ≠ 0) {l : List α} (h : l ≠ []) :
    blocks c l = l.take c :: blocks c (l.drop c) := by
  rw [blocks, dif_neg h, dif_neg hc]

theorem blocks_append {α : Type} {c : ℕ} (hc : c ≠ 0) {a : List α} (h : a.length = c) (b : List α) :
    blocks c (a ++ b) = a :: blocks c b := by
  rw [blocks_cons hc (by intro h'; simp_all), List.take_left' h, List.drop_left' h]

theorem flatten_blocks {α : Type} (c : ℕ) (l : List α) : (blocks c l).flatten = l := by
  induction hn : l.length using Nat.strong_induction_on generalizing l with
  | _ n ih =>
    rw [blocks]
    split
    · rename_i h; simp [h]
    · rename_i h
      split
      · simp
      · rename_i hc
        have h1 := List.length_pos_iff.mpr h
        have := ih (l.drop c).length (by rw [List.length_drop]; omega) (l.drop c) rfl
        rw [List.flatten_cons, this, List.take_append_drop]

theorem reduce_node_leaves {A : Type} : ∀ (ts : List (MergeTree A)) (t : MergeTree A), reduce .node ts = some t →
    t.leaves = ts.flatMap MergeTree.leaves
  | [], t, h => by simp [reduce] at h
  | a :: ts, t, h => by
    simp only [reduce, Option.some.injEq] at h
    subst h
    induction ts generalizing a with
    | nil => simp
    | cons b ts ih =>
      rw [List.foldl_cons, ih]
      simp [MergeTree.leaves]

theorem reduce_isSome {A : Type} (f : A → A → A) : ∀ l : List A, l ≠ [] → ∃ a, reduce f l = some a
  | [], h => absurd rfl h
  | a :: l, _ => ⟨_, rfl⟩

theorem valuesOf_flatten (k : K) (bs : List (List (K × V))) : valuesOf k bs.flatten = (bs.map (valuesOf k)).flatten := by
  induction bs with
  | nil => rfl
  | cons b bs ih => rw [List.flatten_cons, valuesOf_append, ih, List.map_cons, List.flatten_cons]

/-- The leaves of the reduction are the values of the key. -/
theorem sparkTree_leaves {bs : List (List (K × V))} {k : K} {t : MergeTree V} (h : sparkTree bs k = some t) :
    t.leaves = valuesOf k bs.flatten := by
  unfold sparkTree at h
  rw [reduce_node_leaves _ _ h, valuesOf_flatten]
  clear h
  induction bs with
  | nil => rfl
  | cons b bs ih =>
    rw [List.map_cons, List.flatten_cons, ← ih, List.filterMap_cons]
    rcases hb : reduce .node ((valuesOf k b).map MergeTree.leaf) with _ | t'
    · rcases hv : valuesOf k b with _ | ⟨v, vs⟩
      · rfl
      · rw [hv] at hb; simp [reduce] at hb
    · rw [hb]
      dsimp only
      rw [List.flatMap_cons, reduce_node_leaves _ _ hb]
      congr 1
      rw [List.flatMap_map]
      simp [MergeTree.leaves]

theorem sparkTree_isSome {bs : List (List (K × V))} {k : K} (h : k ∈ bs.flatten.map Prod.fst) :
    ∃ t, sparkTree bs k = some t := by
  unfold sparkTree
  apply reduce_isSome
  obtain ⟨e, he, rfl⟩ := List.mem_map.mp h
  obtain ⟨b, hb, heb⟩ := List.mem_flatten.mp he
  have hv : valuesOf e.1 b ≠ [] := valuesOf_ne_nil.mpr (List.mem_map.mpr ⟨e, heb, rfl⟩)
  obtain ⟨t, ht⟩ := reduce_isSome MergeTree.node ((valuesOf e.1 b).map .leaf) (by simpa using hv)
  exact List.ne_nil_of_mem (List.mem_filterMap.mpr ⟨b, hb, ht⟩)

/-- The result is one of those of the relation of C39. -/
theorem sampleTree_reduced (rng : SparkRng) (stage : String) {J : Type} (key : J) (n : ℕ) : ∀ (path : List Bool) (t : MergeTree V),
    SparkReduced n t (sampleTree (rng.pick stage key) n path t)
  | _, .leaf v => .leaf v
  | path, .node l r => by
    refine .node (sampleTree_reduced rng stage key n (false :: path) l) (sampleTree_reduced rng stage key n (true :: path) r) ?_ ?_
    · refine takeIndices_subperm _ _ (rng.nodup _ _ _ _ _) ?_
      intro i hi
      rw [List.length_append]
      exact rng.lt _ _ _ _ _ i hi
    · simp only [sampleTree]
      rw [takeIndices_length]
      · exact rng.length _ _ _ _ _ (min_le_left _ _)
      · intro i hi
        rw [List.length_append]
        exact rng.lt _ _ _ _ _ i hi

theorem filterMap_of_some {A B : Type} {f : A → Option B} {g : A → B} {l : List A} (h : ∀ a ∈ l, f a = some (g a)) :
    l.filterMap f = l.map g := by
  induction l with
  | nil => rfl
  | cons a l ih =>
    rw [List.filterMap_cons, h a (by simp), List.map_cons, ih fun b hb => h b (by simp [hb])]

/-- One entry for every key, computed from a reduction of the values of the key. -/
theorem spark_keys {A : Type} (c : ℕ) (f : K → MergeTree V → A) (col : List (K × V)) :
    (((dictGroup col).filterMap fun e => (sparkTree (blocks c col) e.1).map fun t => (e.1, f e.1 t)).map Prod.fst)
      = (dictGroup col).map Prod.fst := by
  rw [List.map_filterMap]
  apply filterMap_of_some
  intro e he
  have hk : e.1 ∈ col.map Prod.fst := (dictGroup_keys col e.1).mp (List.mem_map.mpr ⟨e, he, rfl⟩)
  obtain ⟨t, ht⟩ := sparkTree_isSome (bs := blocks c col) (k := e.1) (by rwa [flatten_blocks])
  rw [ht]; rfl

theorem mem_spark {A : Type} {c : ℕ} {f : K → MergeTree V → A} {col : List (K × V)} {x : K × A}
    (h : x ∈ (dictGroup col).filterMap fun e => (sparkTree (blocks c col) e.1).map fun t => (e.1, f e.1 t)) :
    ∃ t, sparkTree (blocks c col) x.1 = some t ∧ t.leaves = valuesOf x.1 col ∧ x.2 = f x.1 t := by
  obtain ⟨e, he, hx⟩ := List.mem_filterMap.mp h
  obtain ⟨t, ht, rfl⟩ := Option.map_eq_some_iff.mp hx
  exact ⟨t, ht, by rw [sparkTree_leaves ht, flatten_blocks], rfl⟩

/-- The sampling is one of the possible reductions of C39. -/
theorem isSparkSample_sparkSample (rng : SparkRng) (c : ℕ) (stage : String) (col : List (K × V)) (n : ℕ) :
    IsSparkSample n col (sparkSample rng c stage col n) := by
  refine ⟨?_, ?_, ?_⟩
  · rw [sparkSample, spark_keys c fun k => sampleTree (rng.pick stage k) n []]; exact dictGroup_nodup col
  · intro k; rw [sparkSample, spark_keys c fun k => sampleTree (rng.pick stage k) n []]; exact dictGroup_keys col k
  · intro e he
    obtain ⟨t, -, ht, hv⟩ := mem_spark (f := fun k => sampleTree (rng.pick stage k) n []) he
    exact ⟨t, by rw [ht], by rw [hv]; exact sampleTree_reduced rng stage e.1 n [] t⟩

/-- **C77** (contract).  Whatever the placement and the random choices, the operations of the Spark backend meet the contracts
which contribution bounding needs (C08-C12). -/
theorem C77_spark_backend_lawful (rng : SparkRng) (other : Rng) (c : ℕ) : (sparkBackend rng other c).Lawful where
  group col := isGrouping_dictGroup col
  sample stage col n hn := C39_spark_sample n hn col _ (isSparkSample_sparkSample rng c stage col n)
  choose stage k l n _ := chooseFromList_spec _ stage k l n

/-- **C77** (contract).  Accumulators are merged once each, whatever the placement. -/
theorem C77_spark_combine_lawful {A : Type} (c : ℕ) (merge : A → A → A) :
    Engine.LawfulCombine merge (sparkCombine (K := K) c merge) := by
  intro col
  refine ⟨?_, ?_, ?_⟩
  · rw [sparkCombine, spark_keys c fun _ t => t.eval merge]; exact dictGroup_nodup col
  · intro k; rw [sparkCombine, spark_keys c fun _ t => t.eval merge]; exact dictGroup_keys col k
  · intro e he
    obtain ⟨t, -, ht, hv⟩ := mem_spark (f := fun _ t => t.eval merge) he
    exact ⟨t, by rw [ht], hv⟩

/-! ### Placements for which the reduction of a key depends only on its values -/

theorem blocks_one {α : Type} (l : List α) : blocks 1 l = l.map fun a => [a] := by
  induction l with
  | nil => exact blocks_nil 1
  | cons a l ih => rw [blocks_cons one_ne_zero (by simp)]; exact congrArg ([a] :: ·) ih

theorem sparkTree_one_block {c : ℕ} (hc : c ≤ 1) (col : List (K × V)) (k : K) :
    sparkTree (blocks c col) k = reduce .node ((valuesOf k col).map .leaf) := by
  unfold sparkTree
  obtain rfl | rfl : c = 0 ∨ c = 1 := by omega
  · rw [blocks]
    split
    · rename_i h; subst h; rfl
    · rw [dif_pos rfl, List.filterMap_cons, List.filterMap_nil]
      rcases reduce MergeTree.node ((valuesOf k col).map .leaf) with _ | t <;> rfl
  · rw [blocks_one, List.filterMap_map]
    congr 1
    induction col with
    | nil => rfl
    | cons e col ih =>
      rw [List.filterMap_cons, valuesOf_cons, ih, Function.comp_apply, valuesOf_cons]
      by_cases h : e.1 = k
      · rw [if_pos h, if_pos h]; rfl
      · rw [if_neg h, if_neg h]; rfl

theorem valuesOf_filter {S : K → Bool} {k : K} (h : S k = true) (col : List (K × V)) :
    valuesOf k (col.filter fun e => S e.1) = valuesOf k col := by
  unfold valuesOf
  rw [List.filter_filter]
  congr 1
  apply List.filter_congr
  intro e _
  by_cases he : e.1 = k
  · simp [he, h]
  · simp [he]

/-- **C77** (blocks of one row, or one block).  The samples of a key depend only on the values of the key, so that the privacy
statements (C60, C62) apply. -/
theorem C77_spark_key_local (rng : SparkRng) (other : Rng) {c : ℕ} (hc : c ≤ 1) : (sparkBackend rng other c).KeyLocal where
  group S col := dictGroup_filter S col
  sample S stage col n := by
    simp only [sparkBackend, sparkSample, dictGroup_filter, List.filter_filterMap, List.filterMap_filter]
    apply List.filterMap_congr
    intro e _
    rw [sparkTree_one_block hc, sparkTree_one_block hc]
    by_cases h : S e.1 = true
    · rw [if_pos h, valuesOf_filter h]
      rcases reduce MergeTree.node ((valuesOf e.1 col).map .leaf) with _ | t
      · rfl
      · simp [Option.filter, h]
    · rw [if_neg h]
      rcases reduce MergeTree.node ((valuesOf e.1 col).map .leaf) with _ | t
      · rfl
      · simp [Option.filter, h]

end PDP.Backend
