import Verif.Backend.Spark
import Verif.Lib.Ops

/-!
# Reductions per key on Beam and Spark

`pipeline_backend.py:336-357` (`BeamBackend.sum_per_key`, `combine_accumulators_per_key`, `reduce_per_key`) and
`pipeline_backend.py:451-465` (`SparkRDDBackend.count_per_element`, `sum_per_key`, `combine_accumulators_per_key`,
`reduce_per_key`).  The runtimes decide in which groups the values of a key are reduced.
-/

set_option linter.unusedVariables false

namespace PDP.Backend

open PDP.Engine (MergeTree reduce beamMerge IsCombine LawfulCombine)

variable {K V A : Type} [DecidableEq K]

/-! ### Model -/

/-- What Beam may compute with a callable `f` from the elements of a list (`CombinePerKey` with a callable, not part of the
repository): an element itself, or the result of `f` on a list of elements and earlier results. -/
inductive Calls (f : List A → Option A) : List A → A → Prop
  | elem (a : A) : Calls f [a] a
  | call (parts : List (List A × A)) (r : A) (hne : parts ≠ []) (h : ∀ p ∈ parts, Calls f p.1 p.2)
      (hr : f (parts.map Prod.snd) = some r) : Calls f (parts.flatMap Prod.fst) r

/-- `CombinePerKey(f)` on Beam: one entry per key, the result of a last call of `f`. -/
structure IsBeamCombine (f : List A → Option A) (col out : List (K × A)) : Prop where
  nodup : (out.map Prod.fst).Nodup
  keys : ∀ k, k ∈ out.map Prod.fst ↔ k ∈ col.map Prod.fst
  values : ∀ e ∈ out, ∃ parts : List (List A × A), parts ≠ [] ∧ (∀ p ∈ parts, Calls f p.1 p.2) ∧
    (parts.flatMap Prod.fst).Perm (valuesOf e.1 col) ∧ f (parts.map Prod.snd) = some e.2

/-- `pipeline_backend.py:354-357` `BeamBackend.reduce_per_key`. -/
def IsBeamReduce (m : A → A → A) (col out : List (K × A)) : Prop := IsBeamCombine (reduce m) col out

/-- `pipeline_backend.py:336-337` `BeamBackend.sum_per_key`: the callable is Python's `sum`. -/
def IsBeamSum (col out : List (K × ℚ)) : Prop := IsBeamCombine (fun l => some l.sum) col out

/-- `pipeline_backend.py:339-352` `BeamBackend.combine_accumulators_per_key`; `truthy` is Python's truth value of an
accumulator. -/
def IsBeamAccumulators (truthy : A → Bool) (m : A → A → A) (col out : List (K × A)) : Prop :=
  IsBeamCombine (beamMerge truthy m) col out

/-- The keyed operations on Beam; grouping, counting and distinct elements are Beam's own (contracts). -/
structure BeamOps (O : Ops) : Prop where
  group : ∀ {K V : Type} [DecidableEq K] (col : List (K × V)), IsGrouping col (O.group col)
  count : ∀ {α : Type} [DecidableEq α] (col : List α), IsCount col (O.countPerElement col)
  distinct : ∀ {α : Type} [DecidableEq α] (col : List α), IsDistinct col (O.distinct col)
  sum : ∀ {K : Type} [DecidableEq K] (col : List (K × ℚ)), IsBeamSum col (O.sumPerKey col)
  reduce : ∀ {K A : Type} [DecidableEq K] (f : A → A → A) (col : List (K × A)), IsBeamReduce f col (O.reducePerKey f col)

/-- `pipeline_backend.py:451-452` `SparkRDDBackend.count_per_element` for rows in blocks of `c`. -/
def sparkCount {α : Type} [DecidableEq α] (c : ℕ) (col : List α) : List (α × ℕ) :=
  sparkCombine c (· + ·) (col.map fun a => (a, 1))

/-- `pipeline_backend.py:454-455` `SparkRDDBackend.sum_per_key` for rows in blocks of `c`. -/
def sparkSum (c : ℕ) (col : List (K × ℚ)) : List (K × ℚ) := sparkCombine c (· + ·) col

/-- The keyed operations on Spark; `groupByKey` and `distinct` (`pipeline_backend.py:415-427, 470-471`) are Spark's own. -/
def sparkOps (c : ℕ) : Ops where
  group := fun col => dictGroup col
  countPerElement := fun col => sparkCount c col
  distinct := fun col => col.dedup
  sumPerKey := fun col => sparkSum c col
  reducePerKey := fun f col => sparkCombine c f col

/-! ### Proofs -/

theorem eval_foldl_node (m : A → A → A) : ∀ (ts : List (MergeTree A)) (t : MergeTree A),
    (ts.foldl .node t).eval m = (ts.map (MergeTree.eval m)).foldl m (t.eval m)
  | [], t => rfl
  | s :: ts, t => by rw [List.foldl_cons, eval_foldl_node m ts, List.map_cons, List.foldl_cons]; rfl

theorem eval_reduce_node (m : A → A → A) {ts : List (MergeTree A)} {t : MergeTree A} (h : reduce .node ts = some t) :
    reduce m (ts.map (MergeTree.eval m)) = some (t.eval m) := by
  rcases ts with _ | ⟨s, ts⟩
  · simp [reduce] at h
  · simp only [reduce, Option.some.injEq] at h
    subst h
    rw [List.map_cons, eval_foldl_node]; rfl

/-- Trees for every part. -/
theorem trees_of_parts (m : A → A → A) : ∀ parts : List (List A × A),
    (∀ p ∈ parts, ∃ t : MergeTree A, t.leaves = p.1 ∧ t.eval m = p.2) →
    ∃ ts : List (MergeTree A), ts.map MergeTree.leaves = parts.map Prod.fst ∧ ts.map (MergeTree.eval m) = parts.map Prod.snd
  | [], _ => ⟨[], rfl, rfl⟩
  | p :: parts, h => by
    obtain ⟨t, h1, h2⟩ := h p (by simp)
    obtain ⟨ts, h3, h4⟩ := trees_of_parts m parts fun q hq => h q (by simp [hq])
    exact ⟨t :: ts, by simp [h1, h3], by simp [h2, h4]⟩

theorem tree_of_last (m : A → A → A) (parts : List (List A × A)) (r : A) (hne : parts ≠ [])
    (h : ∀ p ∈ parts, ∃ t : MergeTree A, t.leaves = p.1 ∧ t.eval m = p.2) (hr : reduce m (parts.map Prod.snd) = some r) :
    ∃ t : MergeTree A, t.leaves = parts.flatMap Prod.fst ∧ t.eval m = r := by
  obtain ⟨ts, h1, h2⟩ := trees_of_parts m parts h
  have hts : ts ≠ [] := by rintro rfl; exact hne (by simpa using h1.symm)
  obtain ⟨t, ht⟩ := reduce_isSome MergeTree.node ts hts
  refine ⟨t, ?_, ?_⟩
  · rw [reduce_node_leaves _ _ ht, List.flatMap_def, h1, ← List.flatMap_def]
  · have := eval_reduce_node m ht
    rw [h2, hr] at this
    exact (Option.some.inj this).symm

theorem tree_of_calls (m : A → A → A) {l : List A} {r : A} (h : Calls (reduce m) l r) :
    ∃ t : MergeTree A, t.leaves = l ∧ t.eval m = r := by
  induction h with
  | elem a => exact ⟨.leaf a, rfl, rfl⟩
  | call parts r hne h hr ih => exact tree_of_last m parts r hne ih hr

/-- **C78** (`reduce_per_key` on Beam).  However Beam nests the calls, every value of a key is merged exactly once. -/
theorem C78_beam_reduce (m : A → A → A) (col out : List (K × A)) (h : IsBeamReduce m col out) : IsCombine m col out where
  nodup := h.nodup
  keys := h.keys
  values e he := by
    obtain ⟨parts, h1, h2, h3, h4⟩ := h.values e he
    obtain ⟨t, ht1, ht2⟩ := tree_of_last m parts e.2 h1 (fun p hp => tree_of_calls m (h2 p hp)) h4
    exact ⟨t, by rw [ht1]; exact h3, ht2.symm⟩

theorem sum_of_parts : ∀ parts : List (List ℚ × ℚ), (∀ p ∈ parts, p.2 = p.1.sum) →
    (parts.map Prod.snd).sum = (parts.flatMap Prod.fst).sum
  | [], _ => rfl
  | p :: parts, h => by
    rw [List.map_cons, List.sum_cons, List.flatMap_cons, List.sum_append, h p (by simp),
      sum_of_parts parts fun q hq => h q (by simp [hq])]

theorem sum_of_calls {l : List ℚ} {r : ℚ} (h : Calls (fun l => some l.sum) l r) : r = l.sum := by
  induction h with
  | elem a => simp
  | call parts r hne h hr ih =>
    rw [← Option.some.inj hr]
    exact sum_of_parts parts ih

/-- **C78** (`sum_per_key` on Beam).  However Beam nests the calls, the result is the sum of the values of the key. -/
theorem C78_beam_sum (col out : List (K × ℚ)) (h : IsBeamSum col out) : IsSum col out where
  nodup := h.nodup
  keys := h.keys
  values e he := by
    obtain ⟨parts, h1, h2, h3, h4⟩ := h.values e he
    rw [← Option.some.inj h4, sum_of_parts parts fun p hp => sum_of_calls (h2 p hp)]
    exact h3.sum_eq

theorem beamMerge_eq (truthy : A → Bool) (m : A → A → A) (h : ∀ a, truthy a = false → ∀ b, m a b = b) (accs : List A) :
    beamMerge truthy m accs = reduce m accs := by
  cases accs with
  | nil => rfl
  | cons a l =>
    have : ∀ r : A, l.foldl (fun res acc => match res with
        | some r => if truthy r then some (m r acc) else some acc
        | none => some acc) (some r) = some (l.foldl m r) := by
      induction l with
      | nil => intro r; rfl
      | cons b l ih =>
        intro r
        rw [List.foldl_cons, List.foldl_cons]
        rcases hr : truthy r with _ | _
        · simp only [hr, Bool.false_eq_true, if_false]
          rw [h r hr b]; exact ih _
        · simp only [hr, if_true]; exact ih _
    exact this a

/-- **C78** (the loop on Beam).  The loop of `combine_accumulators_per_key` reduces every list of accumulators iff merging a
falsy accumulator with another one gives the other one. -/
theorem C78_beam_loop_iff (truthy : A → Bool) (m : A → A → A) :
    (∀ accs, beamMerge truthy m accs = reduce m accs) ↔ ∀ a, truthy a = false → ∀ b, m a b = b := by
  refine ⟨fun h a ha b => ?_, fun h accs => beamMerge_eq truthy m h accs⟩
  have := h [a, b]
  simp only [beamMerge, List.foldl_cons, List.foldl_nil, ha, Bool.false_eq_true, if_false, reduce] at this
  exact (Option.some.inj this).symm

/-- **C78** (`combine_accumulators_per_key` on Beam).  If falsy accumulators are neutral (in particular if there are none:
the accumulators of the engine and of the analysis are non-empty tuples), every accumulator of a key is merged exactly once. -/
theorem C78_beam_combine (truthy : A → Bool) (m : A → A → A) (h : ∀ a, truthy a = false → ∀ b, m a b = b)
    (col out : List (K × A)) (ho : IsBeamAccumulators truthy m col out) : IsCombine m col out := by
  have : beamMerge truthy m = reduce m := funext (beamMerge_eq truthy m h)
  unfold IsBeamAccumulators at ho
  rw [this] at ho
  exact C78_beam_reduce m col out ho

/-- **C78, gap** (falsy accumulators on Beam).  A falsy accumulator which is not neutral can be lost: the result of the key is
the other accumulator, which is not the merge of both in any order. -/
theorem C78_beam_loses_falsy (truthy : A → Bool) (m : A → A → A) (k : K) (a b : A) (ha : truthy a = false) (h1 : m a b ≠ b)
    (h2 : m b a ≠ b) :
    IsBeamAccumulators truthy m [(k, a), (k, b)] [(k, b)] ∧ ¬ IsCombine m [(k, a), (k, b)] [(k, b)] := by
  constructor
  · refine ⟨by simp, by simp, ?_⟩
    intro e he
    obtain rfl : e = (k, b) := by simpa using he
    refine ⟨[([a], a), ([b], b)], by simp, ?_, ?_, ?_⟩
    · intro p hp
      rcases (by simpa using hp : p = ([a], a) ∨ p = ([b], b)) with rfl | rfl
      · exact .elem a
      · exact .elem b
    · simp [valuesOf]
    · simp [beamMerge, ha]
  · intro hc
    obtain ⟨t, ht1, ht2⟩ := hc.values (k, b) (by simp)
    have hv : valuesOf k [(k, a), (k, b)] = [a, b] := by simp [valuesOf]
    rw [hv] at ht1
    have hlen := ht1.length_eq
    have hpos : ∀ s : MergeTree A, 0 < s.leaves.length := by
      intro s
      induction s with
      | leaf a => simp [MergeTree.leaves]
      | node l r ihl ihr => simp [MergeTree.leaves]; omega
    have hone : ∀ s : MergeTree A, s.leaves.length = 1 → ∃ x, s = .leaf x := by
      intro s hs
      cases s with
      | leaf x => exact ⟨x, rfl⟩
      | node l r =>
        have := hpos l; have := hpos r
        simp only [MergeTree.leaves, List.length_append] at hs
        omega
    cases t with
    | leaf x => simp [MergeTree.leaves] at hlen
    | node l r =>
      have p1 := hpos l
      have p2 := hpos r
      simp only [MergeTree.leaves, List.length_append, List.length_cons, List.length_nil] at hlen
      obtain ⟨x, rfl⟩ := hone l (by omega)
      obtain ⟨y, rfl⟩ := hone r (by omega)
      simp only [MergeTree.leaves, List.cons_append, List.nil_append] at ht1
      simp only [MergeTree.eval] at ht2
      have hx : x = a ∧ y = b ∨ x = b ∧ y = a := by
        have hxm : x ∈ [a, b] := ht1.subset (by simp)
        rcases (by simpa using hxm : x = a ∨ x = b) with rfl | rfl
        · left
          exact ⟨rfl, by simpa using (List.perm_cons x).1 ht1⟩
        · right
          exact ⟨rfl, by simpa using (List.perm_cons x).1 (ht1.trans (List.Perm.swap x a []))⟩
      rcases hx with ⟨rfl, rfl⟩ | ⟨rfl, rfl⟩
      · exact h1 ht2.symm
      · exact h2 ht2.symm

/-- **C78** (Beam).  The keyed operations meet the contracts on which the histograms and reports rely. -/
theorem C78_beam_ops_lawful (O : Ops) (h : BeamOps O) : O.Lawful where
  group := h.group
  count := h.count
  distinct := h.distinct
  sum col := C78_beam_sum col _ (h.sum col)
  reduce f col := C78_beam_reduce f col _ (h.reduce f col)

theorem eval_add {B : Type} [AddCommMonoid B] : ∀ t : MergeTree B, t.eval (· + ·) = t.leaves.sum
  | .leaf a => by simp [MergeTree.eval, MergeTree.leaves]
  | .node l r => by
    simp only [MergeTree.eval, MergeTree.leaves, List.sum_append]
    rw [eval_add l, eval_add r]

theorem valuesOf_map_one {α : Type} [DecidableEq α] (a : α) (col : List α) :
    (valuesOf a (col.map fun x => (x, 1))).sum = col.count a := by
  induction col with
  | nil => rfl
  | cons x col ih =>
    rw [List.map_cons, valuesOf_cons, List.count_cons]
    by_cases h : x = a
    · simp [h, ih, Nat.add_comm]
    · simp [h, ih]

/-- **C78** (Spark).  The keyed operations meet the contracts for every placement of the rows. -/
theorem C78_spark_ops_lawful (c : ℕ) : (sparkOps c).Lawful where
  group := fun col => isGrouping_dictGroup col
  count := by
    intro α _ col
    have h := C77_spark_combine_lawful (K := α) c (fun a b : ℕ => a + b) (col.map fun a => (a, 1))
    refine ⟨h.nodup, fun a => ?_, fun e he => ?_⟩
    · show a ∈ (sparkCombine c (· + ·) (col.map fun a => (a, 1))).map Prod.fst ↔ _
      rw [h.keys]; simp
    · obtain ⟨t, h1, h2⟩ := h.values e he
      rw [h2, eval_add, h1.sum_eq, valuesOf_map_one]
  distinct := fun col => ⟨List.nodup_dedup col, fun a => List.mem_dedup⟩
  sum := by
    intro K _ col
    have h := C77_spark_combine_lawful (K := K) c (fun a b : ℚ => a + b) col
    refine ⟨h.nodup, h.keys, fun e he => ?_⟩
    obtain ⟨t, h1, h2⟩ := h.values e he
    rw [h2, eval_add, h1.sum_eq]
  reduce := fun f col => C77_spark_combine_lawful c f col

/-! ### Non-vacuity -/

/-- One call on all values of a key is one of the possible ways. -/
theorem localCombine_beam (m : A → A → A) (col : List (K × A)) : IsBeamReduce m col (Engine.localCombine m col) := by
  have hl := Engine.localCombine_lawful m col
  refine ⟨hl.nodup, hl.keys, ?_⟩
  intro e he
  obtain ⟨⟨k, vs⟩, hx, hr⟩ := List.mem_filterMap.mp he
  obtain ⟨r, hr, rfl⟩ := Option.map_eq_some_iff.mp hr
  have hv := dictGroup_values col _ hx
  simp only at hv hr
  refine ⟨vs.map fun a => ([a], a), ?_, ?_, ?_, ?_⟩
  · rintro h
    obtain rfl : vs = [] := by simpa using h
    simp [reduce] at hr
  · intro p hp
    obtain ⟨a, -, rfl⟩ := List.mem_map.mp hp
    exact .elem a
  · rw [List.flatMap_map, ← hv]; simp
  · rw [List.map_map]; simpa [Function.comp_def] using hr

theorem localSum_beam (col : List (K × ℚ)) : IsBeamSum col (localOps.sumPerKey col) := by
  have hl := localOps_lawful.sum col
  refine ⟨hl.nodup, hl.keys, ?_⟩
  intro e he
  refine ⟨(valuesOf e.1 col).map fun a => ([a], a), ?_, ?_, ?_, ?_⟩
  · intro h
    exact valuesOf_ne_nil.mpr ((hl.keys e.1).mp (List.mem_map.mpr ⟨e, he, rfl⟩)) (by simpa using h)
  · intro p hp
    obtain ⟨a, -, rfl⟩ := List.mem_map.mp hp
    exact .elem a
  · rw [List.flatMap_map]; simp
  · rw [List.map_map]
    simpa [Function.comp_def] using (hl.values e he).symm

example : BeamOps localOps where
  group := localOps_lawful.group
  count := localOps_lawful.count
  distinct := localOps_lawful.distinct
  sum col := localSum_beam col
  reduce f col := localCombine_beam f col

/-- Nested calls: the sum of the first two values is added to the third. -/
example : IsBeamReduce (fun a b : ℕ => a + b) [('a', 1), ('a', 2), ('a', 3)] [('a', 6)] := by
  refine ⟨by simp, by simp, ?_⟩
  intro e he
  obtain rfl : e = ('a', 6) := by simpa using he
  refine ⟨[([1, 2], 3), ([3], 3)], by simp, ?_, by decide, rfl⟩
  intro p hp
  rcases (by simpa using hp : p = ([1, 2], 3) ∨ p = ([3], 3)) with rfl | rfl
  · refine Calls.call [([1], 1), ([2], 2)] 3 (by simp) ?_ rfl
    intro p hp
    rcases (by simpa using hp : p = ([1], 1) ∨ p = ([2], 2)) with rfl | rfl <;> exact .elem _
  · exact .elem 3

/-- The smallest value: 0 is falsy but not neutral, so it is lost.  Sums: 0 is falsy and neutral. -/
example : IsBeamAccumulators (fun a : ℕ => a != 0) min [('a', 0), ('a', 5)] [('a', 5)] :=
  (C78_beam_loses_falsy _ min 'a' 0 5 rfl (by decide) (by decide)).1

example : ∀ a : ℕ, (a != 0) = false → ∀ b, a + b = b := by
  intro a ha b
  have : a = 0 := by simpa using ha
  omega

/-- Counts on Spark over two blocks. -/
example : (sparkCount 2 ['a', 'b', 'a', 'a']).Perm [('a', 3), ('b', 1)] :=
  (IsCount.perm ((C78_spark_ops_lawful 2).count ['a', 'b', 'a', 'a']) (localOps_lawful.count ['a', 'b', 'a', 'a'])
    (List.Perm.refl _)).trans (by decide)

end PDP.Backend
