import Verif.Histogram.Sum
import Mathlib.Data.List.ProdSigma
import Mathlib.Tactic.Tauto

/-!
# `filter_by_key` and the composite helpers of `pipeline_functions.py`

Distributed collections are lists whose order is left open (the results are compared up to permutation).
`CoGroupByKey` of Beam and `join` of Spark are given by their documented contracts.
-/

set_option linter.unusedVariables false
set_option linter.unusedSectionVars false

namespace PDP.Backend

open PDP.Histogram (minMaxPerKey IsMinMax minMaxPerKey_spec)

variable {K V : Type} [DecidableEq K]

/-! ### Model of `filter_by_key` -/

/-- `pipeline_backend.py:517-523` `LocalBackend.filter_by_key` with a list or set; also
`pipeline_backend.py:305-310, 430-434`: Beam and Spark with keys in memory (a set is made first). -/
def filterByKey (col : List (K × V)) (keys : List K) : List (K × V) := col.filter fun kv => kv.1 ∈ keys

/-- `for x in generator` up to the first match: what `kv[0] in keys_to_keep` does when `keys_to_keep` is a
generator, with the rest of the generator. -/
def consume (k : K) : List K → Bool × List K
  | [] => (false, [])
  | x :: rest => if x = k then (true, rest) else consume k rest

/-- `LocalBackend.filter_by_key` when `keys_to_keep` is a generator. -/
def filterByGenerator : List (K × V) → List K → List (K × V)
  | [], _ => []
  | kv :: col, gen =>
    if (consume kv.1 gen).1 then kv :: filterByGenerator col (consume kv.1 gen).2
    else filterByGenerator col (consume kv.1 gen).2

/-- Contract of Beam's `CoGroupByKey` of two collections. -/
structure IsCoGroup {W : Type} (col : List (K × V)) (flags : List (K × W)) (out : List (K × (List V × List W))) : Prop where
  nodup : (out.map Prod.fst).Nodup
  keys : ∀ k, k ∈ out.map Prod.fst ↔ k ∈ col.map Prod.fst ∨ k ∈ flags.map Prod.fst
  values : ∀ e ∈ out, e.2.1.Perm (valuesOf e.1 col)
  flags : ∀ e ∈ out, e.2.2.Perm (valuesOf e.1 flags)

/-- `pipeline_backend.py:285-294` `PartitionsFilterJoin.process`. -/
def filterJoin (e : K × (List V × List Bool)) : List (K × V) :=
  if e.2.1.isEmpty then [] else if e.2.2.isEmpty then [] else e.2.1.map fun v => (e.1, v)

/-- `pipeline_backend.py:306-314` `BeamBackend.filter_by_key` with a `PCollection` of keys. -/
def beamFilter (coGroup : List (K × V) → List (K × Bool) → List (K × (List V × List Bool)))
    (col : List (K × V)) (keys : List K) : List (K × V) :=
  (coGroup col (keys.map fun x => (x, true))).flatMap filterJoin

/-- Contract of Spark's `join`: for every key, all pairs of a left and a right value. -/
def IsJoin {W : Type} (col : List (K × V)) (other : List (K × W)) (out : List (K × (V × W))) : Prop :=
  ∀ k, (valuesOf k out).Perm (valuesOf k col ×ˢ valuesOf k other)

/-- `pipeline_backend.py:426-428` `SparkRDDBackend.filter_by_key` with an RDD of keys. -/
def sparkFilter (join : List (K × V) → List (K × Unit) → List (K × (V × Unit))) (col : List (K × V)) (keys : List K) :
    List (K × V) :=
  (join col (keys.map fun x => (x, ()))).map fun x => (x.1, x.2.1)

/-- Concrete `CoGroupByKey` and `join`, used only to show that the contracts can be met. -/
def coGroup {W : Type} (col : List (K × V)) (flags : List (K × W)) : List (K × (List V × List W)) :=
  ((col.map Prod.fst ++ flags.map Prod.fst).dedup).map fun k => (k, (valuesOf k col, valuesOf k flags))

def joinRows {W : Type} (col : List (K × V)) (other : List (K × W)) : List (K × (V × W)) :=
  col.flatMap fun e => (valuesOf e.1 other).map fun w => (e.1, (e.2, w))

/-! ### Model of the helpers -/

/-- `pipeline_functions.py:24-28` `key_by`. -/
def keyBy {A : Type} (f : A → K) (col : List A) : List (K × A) := col.map fun el => (f el, el)

/-- `pipeline_functions.py:31-39` `size`. -/
def size {A : Type} (O : Ops) (col : List A) : List ℕ :=
  (O.countPerElement (col.map fun _ => "fake_common_key")).map Prod.snd

/-- `dict(list of pairs)`: later pairs overwrite earlier ones. -/
def pyDict {A : Type} (l : List (String × A)) : String → Option A :=
  l.foldl (fun d e => fun k => if k = e.1 then some e.2 else d k) fun _ => none

/-- `pipeline_functions.py:45-99` `collect_to_container` up to the call `container_class(**d)`: the dictionary
passed to the constructor.  `flatten` may produce any order. -/
def containerArgs {A : Type} (flatten : List (List (String × A)) → List (String × A)) (cols : List (String × List A)) :
    String → Option A :=
  pyDict (flatten (cols.map fun c => keyBy (fun _ => c.1) c.2))

/-- `pipeline_functions.py:119-160` `filter_by_key_with_sharding`; `rnd` are the results of `random.randint`,
one for each row. -/
def filterSharded (filter : {J W : Type} → [DecidableEq J] → List (J × W) → List J → List (J × W))
    (col : List (K × V)) (keys : List K) (factor : ℕ) (rnd : List ℕ) : List (K × V) :=
  if factor > 1 then
    let col := List.zipWith (fun kv r => ((kv.1, r), kv.2)) col rnd
    let keys := keys.flatMap fun p => (List.range factor).map fun i => (p, i)
    (filter col keys).map fun e => (e.1.1, e.2)
  else filter col keys

/-! ### Lemmas -/

theorem valuesOf_filterByKey (k : K) (col : List (K × V)) (keys : List K) :
    valuesOf k (filterByKey col keys) = if k ∈ keys then valuesOf k col else [] := by
  unfold filterByKey
  induction col with
  | nil => simp
  | cons e col ih =>
    rw [List.filter_cons]
    by_cases h : e.1 ∈ keys
    · rw [if_pos (by simpa using h), valuesOf_cons, valuesOf_cons, ih]
      by_cases hk : e.1 = k
      · subst hk; simp [h]
      · simp [hk]
    · rw [if_neg (by simpa using h), ih, valuesOf_cons]
      by_cases hk : e.1 = k
      · subst hk; simp [h]
      · simp [hk]

theorem valuesOf_flatMap_self {A : Type} (k : K) (l : List A) (f : A → List (K × V)) :
    valuesOf k (l.flatMap f) = l.flatMap fun a => valuesOf k (f a) := by
  induction l with
  | nil => rfl
  | cons a l ih => simp [valuesOf_append, ih]

theorem valuesOf_const_length (k : K) (keys : List K) :
    (valuesOf k (keys.map fun x => (x, ()))).length = keys.count k := by
  induction keys with
  | nil => rfl
  | cons x keys ih =>
    rw [List.map_cons, valuesOf_cons, List.count_cons]
    by_cases h : x = k
    · simp [h, ih]
    · simp [h, ih]

theorem valuesOf_replicate (k : K) (n : ℕ) (e : K × V) :
    valuesOf k (List.replicate n e) = if e.1 = k then List.replicate n e.2 else [] := by
  induction n with
  | zero => simp
  | succ n ih => rw [List.replicate_succ, valuesOf_cons, ih]; split <;> simp [List.replicate_succ]

theorem product_map_fst {W : Type} (xs : List V) (ys : List W) :
    (xs ×ˢ ys).map Prod.fst = xs.flatMap fun x => List.replicate ys.length x := by
  induction xs with
  | nil => rfl
  | cons x xs ih =>
    rw [List.product_cons, List.map_append, ih, List.flatMap_cons, List.map_map]
    congr 1
    have : (Prod.fst ∘ fun b : W => (x, b)) = fun _ => x := rfl
    rw [this, List.map_const']

theorem valuesOf_map_fst_snd {W : Type} (k : K) (out : List (K × (V × W))) :
    valuesOf k (out.map fun x => (x.1, x.2.1)) = (valuesOf k out).map Prod.fst := by
  induction out with
  | nil => rfl
  | cons x out ih =>
    rw [List.map_cons, valuesOf_cons, valuesOf_cons, ih]
    split <;> simp_all

theorem valuesOf_flatMap_replicate (k : K) (col : List (K × V)) (n : K → ℕ) :
    valuesOf k (col.flatMap fun e => List.replicate (n e.1) e)
      = (valuesOf k col).flatMap fun v => List.replicate (n k) v := by
  rw [valuesOf_flatMap_self]
  induction col with
  | nil => rfl
  | cons e col ih =>
    rw [List.flatMap_cons, ih, valuesOf_replicate, valuesOf_cons]
    by_cases h : e.1 = k
    · simp [h]
    · simp [h]

theorem isCoGroup_coGroup {W : Type} (col : List (K × V)) (flags : List (K × W)) :
    IsCoGroup col flags (coGroup col flags) := by
  have hk : (coGroup col flags).map Prod.fst = (col.map Prod.fst ++ flags.map Prod.fst).dedup := by
    simp [coGroup, List.map_map, Function.comp_def]
  refine ⟨by rw [hk]; exact List.nodup_dedup _, fun k => by rw [hk, List.mem_dedup, List.mem_append], ?_, ?_⟩ <;>
  · intro e he
    obtain ⟨k, -, rfl⟩ := List.mem_map.mp he
    exact List.Perm.refl _

theorem isJoin_joinRows {W : Type} (col : List (K × V)) (other : List (K × W)) : IsJoin col other (joinRows col other) := by
  intro k
  unfold joinRows
  rw [valuesOf_flatMap_self]
  have : (col.flatMap fun e => valuesOf k ((valuesOf e.1 other).map fun w => (e.1, (e.2, w))))
      = valuesOf k col ×ˢ valuesOf k other := by
    induction col with
    | nil => rfl
    | cons e col ih =>
      rw [List.flatMap_cons, ih, valuesOf_cons]
      by_cases h : e.1 = k
      · rw [if_pos h, List.product_cons]
        congr 1
        subst h
        have := valuesOf_map_same e.1 ((valuesOf e.1 other).map fun w => (e.2, w))
        rw [List.map_map] at this
        exact this
      · rw [if_neg h]
        have := valuesOf_map_other h ((valuesOf e.1 other).map fun w => (e.2, w))
        rw [List.map_map] at this
        have h2 : ((fun v => (e.1, v)) ∘ fun w : W => (e.2, w)) = fun w => (e.1, (e.2, w)) := rfl
        rw [h2] at this
        rw [this, List.nil_append]
  rw [this]

/-! ### C38 -/

/-- C38: with keys in memory, exactly the rows with a listed key are kept, in their order and each as often as it
occurs, however often its key is listed. -/
theorem C38_in_memory (col : List (K × V)) (keys : List K) (e : K × V) :
    (filterByKey col keys).Sublist col ∧ (e ∈ filterByKey col keys ↔ e ∈ col ∧ e.1 ∈ keys) ∧
    ∀ k, valuesOf k (filterByKey col keys) = if k ∈ keys then valuesOf k col else [] :=
  ⟨List.filter_sublist, by simp [filterByKey], fun k => valuesOf_filterByKey k col keys⟩

/-- C38: the join on Beam keeps exactly the same rows as the in-memory filter, with the same multiplicities, also
when the key collection has duplicates. -/
theorem C38_beam_join (cg : List (K × V) → List (K × Bool) → List (K × (List V × List Bool)))
    (hcg : ∀ a b, IsCoGroup a b (cg a b)) (col : List (K × V)) (keys : List K) :
    (beamFilter cg col keys).Perm (filterByKey col keys) := by
  apply perm_of_valuesOf
  intro k
  rw [valuesOf_filterByKey]
  unfold beamFilter
  set flags := keys.map fun x => (x, true) with hflags
  have hc := hcg col flags
  set out := cg col flags with hout
  have hfl : flags.map Prod.fst = keys := by rw [hflags, List.map_map]; simp [Function.comp_def]
  have hone : ∀ e ∈ out, valuesOf k (filterJoin e) = if e.1 = k ∧ k ∈ keys then e.2.1 else [] := by
    intro e he
    have hf : e.2.2.isEmpty = true ↔ e.1 ∉ keys := by
      rw [List.isEmpty_iff, ← not_iff_not, not_not]
      have h1 := hc.flags e he
      constructor
      · intro h
        have : valuesOf e.1 flags ≠ [] := fun h' => h (by rw [h'] at h1; exact h1.eq_nil)
        rw [← hfl]; exact valuesOf_ne_nil.mp this
      · intro h h'
        rw [← hfl] at h
        rw [h'] at h1
        exact valuesOf_ne_nil.mpr h h1.nil_eq.symm
    unfold filterJoin
    by_cases h1 : e.2.1 = []
    · simp [h1]
    · rw [if_neg (by simpa using h1)]
      by_cases h2 : e.1 ∈ keys
      · rw [if_neg (by rw [hf]; tauto)]
        by_cases h3 : e.1 = k
        · subst h3; rw [valuesOf_map_same, if_pos ⟨rfl, h2⟩]
        · rw [valuesOf_map_other h3, if_neg (fun h : e.1 = k ∧ k ∈ keys => h3 h.1)]
      · rw [if_pos (hf.mpr h2), if_neg (fun h : e.1 = k ∧ k ∈ keys => h2 (h.1 ▸ h.2))]
        rfl
  rw [valuesOf_flatMap_self]
  have hcongr : (out.flatMap fun e => valuesOf k (filterJoin e)) = out.flatMap fun e => if e.1 = k ∧ k ∈ keys then e.2.1 else [] := by
    apply List.flatMap_congr
    exact hone
  rw [hcongr]
  by_cases hk : k ∈ keys
  · rw [if_pos hk]
    simp only [hk, and_true]
    have hmem : k ∈ out.map Prod.fst := (hc.keys k).mpr (.inr (hfl ▸ hk))
    have hnd := hc.nodup
    have hv := hc.values
    clear_value out
    obtain ⟨e, he, rfl⟩ := List.mem_map.mp hmem
    refine List.Perm.trans (List.Perm.of_eq ?_) (hv e he)
    clear hv hone hcongr hmem hc hout
    induction out with
    | nil => simp at he
    | cons x out ih =>
      rw [List.map_cons, List.nodup_cons] at hnd
      rw [List.flatMap_cons]
      rcases List.mem_cons.mp he with rfl | he'
      · rw [if_pos rfl]
        have : (out.flatMap fun x => if x.1 = e.1 then x.2.1 else []) = [] := by
          rw [List.flatMap_eq_nil_iff]
          intro y hy
          rw [if_neg]
          intro h
          exact hnd.1 (h ▸ List.mem_map_of_mem hy)
        rw [this, List.append_nil]
      · rw [if_neg (fun h : x.1 = e.1 => hnd.1 (h ▸ List.mem_map_of_mem he')), List.nil_append, ih hnd.2 he']
  · rw [if_neg hk]
    simp [hk]

/-- C38: the join on Spark keeps each row as many times as its key occurs in the key collection. -/
theorem C38_spark_join (join : List (K × V) → List (K × Unit) → List (K × (V × Unit)))
    (hj : ∀ a b, IsJoin a b (join a b)) (col : List (K × V)) (keys : List K) :
    (sparkFilter join col keys).Perm (col.flatMap fun e => List.replicate (keys.count e.1) e) := by
  apply perm_of_valuesOf
  intro k
  unfold sparkFilter
  rw [valuesOf_map_fst_snd, valuesOf_flatMap_replicate k col fun k => keys.count k]
  refine ((hj col _ k).map Prod.fst).trans ?_
  rw [product_map_fst, valuesOf_const_length]

/-- C38: the join on Spark agrees with the in-memory filter exactly when no key of the data is listed twice. -/
theorem C38_spark_join_correct_iff (join : List (K × V) → List (K × Unit) → List (K × (V × Unit)))
    (hj : ∀ a b, IsJoin a b (join a b)) (col : List (K × V)) (keys : List K) :
    (sparkFilter join col keys).Perm (filterByKey col keys) ↔ ∀ e ∈ col, keys.count e.1 ≤ 1 := by
  have hs := C38_spark_join join hj col keys
  constructor
  · intro h
    have hp : (col.flatMap fun e => List.replicate (keys.count e.1) e).Perm (filterByKey col keys) := hs.symm.trans h
    have hlen : ∀ c : List (K × V), ((c.flatMap fun e => List.replicate (keys.count e.1) e).length)
        ≥ (filterByKey c keys).length ∧
        ((c.flatMap fun e => List.replicate (keys.count e.1) e).length = (filterByKey c keys).length →
          ∀ e ∈ c, keys.count e.1 ≤ 1) := by
      intro c
      induction c with
      | nil => simp [filterByKey]
      | cons e c ih =>
        rw [List.flatMap_cons, List.length_append, List.length_replicate]
        unfold filterByKey at ih ⊢
        rw [List.filter_cons]
        by_cases hm : e.1 ∈ keys
        · have hpos := List.count_pos_iff.mpr hm
          rw [if_pos (by simpa using hm), List.length_cons]
          refine ⟨by omega, fun heq x hx => ?_⟩
          rcases List.mem_cons.mp hx with rfl | hx
          · omega
          · exact ih.2 (by omega) x hx
        · have h0 : keys.count e.1 = 0 := List.count_eq_zero.mpr hm
          rw [if_neg (by simpa using hm), h0]
          refine ⟨by omega, fun heq x hx => ?_⟩
          rcases List.mem_cons.mp hx with rfl | hx
          · omega
          · exact ih.2 (by omega) x hx
    exact (hlen col).2 hp.length_eq
  · intro h
    refine hs.trans (List.Perm.of_eq ?_)
    clear hs
    induction col with
    | nil => rfl
    | cons e c ih =>
      rw [List.flatMap_cons, ih fun x hx => h x (List.mem_cons_of_mem _ hx)]
      unfold filterByKey
      rw [List.filter_cons]
      by_cases hm : e.1 ∈ keys
      · have h1 : keys.count e.1 = 1 :=
          Nat.le_antisymm (h e List.mem_cons_self) (List.count_pos_iff.mpr hm)
        rw [if_pos (by simpa using hm), h1]; rfl
      · rw [if_neg (by simpa using hm), List.count_eq_zero.mpr hm]; rfl

theorem consume_count (k : K) (gen : List K) (j : K) :
    (consume k gen).2.count j + (if j = k ∧ (consume k gen).1 = true then 1 else 0) ≤ gen.count j := by
  induction gen with
  | nil => simp [consume]
  | cons x gen ih =>
    unfold consume
    split
    · rename_i h
      subst h
      rw [List.count_cons]
      by_cases hj : j = x
      · subst hj; simp
      · simp [hj]
    · rw [List.count_cons]
      omega

/-- C38 (gap): when the keys are given to the local backend as a one-shot generator, at most one row is kept for
each time a key is produced by the generator. -/
theorem C38_generator_keeps_one_row_per_listing (col : List (K × V)) (gen : List K) (k : K) :
    (valuesOf k (filterByGenerator col gen)).length ≤ gen.count k := by
  induction col generalizing gen with
  | nil => simp [filterByGenerator]
  | cons e col ih =>
    have hc := consume_count e.1 gen k
    have := ih (consume e.1 gen).2
    unfold filterByGenerator
    by_cases h : (consume e.1 gen).1 = true
    · rw [if_pos h, valuesOf_cons]
      by_cases hk : e.1 = k
      · subst hk
        rw [if_pos rfl, List.length_cons]
        rw [if_pos ⟨rfl, h⟩] at hc
        omega
      · rw [if_neg hk]; omega
    · rw [if_neg h]; omega

/-- C38 (gap): hence a user whose key is listed loses rows. -/
theorem C38_generator_loses_rows (k : K) (v w : V) :
    filterByKey [(k, v), (k, w)] [k] = [(k, v), (k, w)] ∧ filterByGenerator [(k, v), (k, w)] [k] = [(k, v)] := by
  simp [filterByKey, filterByGenerator, consume]

example : (∀ a b, IsCoGroup (K := ℕ) (V := ℕ) (W := Bool) a b (coGroup a b)) ∧
    beamFilter coGroup [(1, 10), (2, 20), (1, 11), (3, 30)] [3, 1, 1] = [(3, 30), (1, 10), (1, 11)] :=
  ⟨isCoGroup_coGroup, by decide +kernel⟩

example : (∀ a b, IsJoin (K := ℕ) (V := ℕ) (W := Unit) a b (joinRows a b)) ∧
    sparkFilter joinRows [(1, 10), (2, 20), (1, 11), (3, 30)] [3, 1, 1]
      = [(1, 10), (1, 10), (1, 11), (1, 11), (3, 30)] :=
  ⟨isJoin_joinRows, by decide +kernel⟩

/-! ### C57 -/

/-- C57: `min_max_per_key` has every key once, with the smallest and the largest of its values. -/
theorem C57_min_max_per_key (O : Ops) (hO : O.Lawful) (col : List (K × ℚ)) :
    ((minMaxPerKey O col).map Prod.fst).Nodup ∧
    (∀ k, k ∈ (minMaxPerKey O col).map Prod.fst ↔ ∃ x, (k, x) ∈ col) ∧
    ∀ k lo hi, (k, (lo, hi)) ∈ minMaxPerKey O col →
      (k, lo) ∈ col ∧ (k, hi) ∈ col ∧ ∀ x, (k, x) ∈ col → lo ≤ x ∧ x ≤ hi := by
  obtain ⟨h1, h2, h3⟩ := minMaxPerKey_spec O hO col
  refine ⟨h1, fun k => ?_, fun k lo hi h => ?_⟩
  · rw [h2]; simp
  · obtain ⟨a, b, c⟩ := h3 _ h
    exact ⟨mem_valuesOf.mp a, mem_valuesOf.mp b, fun x hx => c x (mem_valuesOf.mpr hx)⟩

/-- C57: `size` is the one-element collection with the number of elements, except that it is empty for an empty
collection. -/
theorem C57_size {A : Type} (O : Ops) (hO : O.Lawful) (col : List A) :
    size O col = if col.isEmpty then [] else [col.length] := by
  unfold size
  have hc := hO.count (col.map fun _ => "fake_common_key")
  set out := O.countPerElement (col.map fun _ => "fake_common_key") with hout
  by_cases hne : col = []
  · subst hne
    have : out = [] := by
      by_contra h
      obtain ⟨e, he⟩ := List.exists_mem_of_ne_nil _ h
      have := (hc.keys e.1).mp (List.mem_map_of_mem he)
      simp at this
    simp [this]
  · have hall : ∀ a, a ∈ out.map Prod.fst → a = "fake_common_key" := by
      intro a ha
      have := (hc.keys a).mp ha
      simp at this
      exact this.2
    obtain ⟨x, hx⟩ := List.exists_mem_of_ne_nil _ hne
    have hin : "fake_common_key" ∈ out.map Prod.fst := (hc.keys _).mpr (List.mem_map.mpr ⟨x, hx, rfl⟩)
    have hlen : out.length = 1 := by
      have hs : (out.map Prod.fst) ⊆ ["fake_common_key"] := fun a ha => by simp [hall a ha]
      have h1 := (hc.nodup.subperm hs).length_le
      have h2 : 0 < (out.map Prod.fst).length := List.length_pos_of_mem hin
      simp at h1 h2
      have : 0 < out.length := by
        cases hout' : out with
        | nil => simp [hout'] at hin
        | cons a b => simp
      omega
    obtain ⟨e, he⟩ := List.length_eq_one_iff.mp hlen
    have hev := hc.values e (by simp [he])
    have hek : e.1 = "fake_common_key" := hall _ (by simp [he])
    rw [hek] at hev
    have hcount : (col.map fun _ => "fake_common_key").count "fake_common_key" = col.length := by
      rw [List.map_const']; simp
    rw [hcount] at hev
    rw [he]
    simp [hev, hne]

/-- C57: `key_by` keeps every element and pairs it with its own key. -/
theorem C57_key_by {A : Type} (f : A → K) (col : List A) :
    (keyBy f col).map Prod.snd = col ∧ ∀ e ∈ keyBy f col, e.1 = f e.2 := by
  constructor
  · simp [keyBy, Function.comp_def]
  · intro e he
    obtain ⟨x, -, rfl⟩ := List.mem_map.mp he
    rfl

theorem pyDict_aux {A : Type} (l : List (String × A)) (d : String → Option A) (k : String) :
    (l.foldl (fun d e => fun k => if k = e.1 then some e.2 else d k) d) k = (valuesOf k l).getLast?.or (d k) := by
  induction l generalizing d with
  | nil => simp
  | cons e l ih =>
    rw [List.foldl_cons, ih, valuesOf_cons]
    by_cases h : e.1 = k
    · subst h
      rw [if_pos rfl, if_pos rfl, List.getLast?_cons]
      cases (valuesOf e.1 l).getLast? <;> simp
    · rw [if_neg h, if_neg (fun h' => h h'.symm)]

/-- C57: `collect_to_container` with one-element collections under distinct names passes to the container
constructor exactly these elements under these names, whatever the order in which the collections are flattened. -/
theorem C57_collect_to_container {A : Type} (flatten : List (List (String × A)) → List (String × A))
    (hfl : ∀ ls, (flatten ls).Perm ls.flatten) (names : List (String × A)) (hn : (names.map Prod.fst).Nodup) (k : String) (a : A) :
    containerArgs flatten (names.map fun e => (e.1, [e.2])) k = some a ↔ (k, a) ∈ names := by
  unfold containerArgs pyDict
  rw [pyDict_aux, Option.or_none]
  have hl : ((names.map fun e => (e.1, [e.2])).map fun c : String × List A => keyBy (fun _ => c.1) c.2).flatten = names := by
    rw [List.map_map]
    induction names with
    | nil => rfl
    | cons e names ih =>
      rw [List.map_cons, List.nodup_cons] at hn
      rw [List.map_cons, List.flatten_cons, ih hn.2]
      rfl
  have hp := hfl ((names.map fun e => (e.1, [e.2])).map fun c : String × List A => keyBy (fun _ => c.1) c.2)
  rw [hl] at hp
  have hv := valuesOf_perm (k := k) hp
  set out := flatten ((names.map fun e => (e.1, [e.2])).map fun c : String × List A => keyBy (fun _ => c.1) c.2)
  constructor
  · intro h
    have : a ∈ valuesOf k out := List.mem_of_getLast? h
    exact mem_valuesOf.mp (hv.mem_iff.mp this)
  · intro h
    have hone : valuesOf k names = [a] := by
      clear hv hp hl
      induction names with
      | nil => simp at h
      | cons e names ih =>
        rw [List.map_cons, List.nodup_cons] at hn
        rw [valuesOf_cons]
        rcases List.mem_cons.mp h with rfl | h
        · rw [if_pos rfl]
          have : valuesOf k names = [] := by
            by_contra hne
            exact hn.1 (valuesOf_ne_nil.mp hne)
          rw [this]
        · have : e.1 ≠ k := fun he => hn.1 (he ▸ List.mem_map.mpr ⟨_, h, rfl⟩)
          rw [if_neg this, ih hn.2 h]
    rw [hone] at hv
    rw [List.perm_singleton.mp hv]
    rfl

/-- C57 (gap): if one of the collections is empty, the constructor is called without that argument. -/
theorem C57_collect_to_container_missing {A : Type} (flatten : List (List (String × A)) → List (String × A))
    (hfl : ∀ ls, (flatten ls).Perm ls.flatten) (cols : List (String × List A)) (k : String)
    (hk : ∀ c ∈ cols, c.1 = k → c.2 = []) : containerArgs flatten cols k = none := by
  unfold containerArgs pyDict
  rw [pyDict_aux, Option.or_none]
  have : valuesOf k (flatten (cols.map fun c => keyBy (fun _ => c.1) c.2)) = [] := by
    by_contra hne
    obtain ⟨v, hv⟩ := List.exists_mem_of_ne_nil _ hne
    have := (hfl _).mem_iff.mp (mem_valuesOf.mp hv)
    rw [List.mem_flatten] at this
    obtain ⟨l, hl, hm⟩ := this
    obtain ⟨c, hc, rfl⟩ := List.mem_map.mp hl
    obtain ⟨x, hx, he⟩ := List.mem_map.mp hm
    have := hk c hc (by simpa using congrArg Prod.fst he)
    rw [this] at hx
    simp at hx
  rw [this]
  rfl

theorem zipWith_filter (col : List (K × V)) (keys : List K) (factor : ℕ) (rnd : List ℕ) (hl : rnd.length = col.length)
    (hr : ∀ r ∈ rnd, r < factor) :
    ((filterByKey (List.zipWith (fun kv r => ((kv.1, r), kv.2)) col rnd)
      (keys.flatMap fun p => (List.range factor).map fun i => (p, i))).map fun e => (e.1.1, e.2)) = filterByKey col keys := by
  unfold filterByKey
  induction col generalizing rnd with
  | nil => cases rnd <;> rfl
  | cons e col ih =>
    cases rnd with
    | nil => simp at hl
    | cons r rnd =>
      have ih' := ih rnd (by simpa using hl) fun x hx => hr x (List.mem_cons_of_mem _ hx)
      rw [List.zipWith_cons_cons, List.filter_cons, List.filter_cons]
      have hiff : ((e.1, r) ∈ keys.flatMap fun p => (List.range factor).map fun i => (p, i)) ↔ e.1 ∈ keys := by
        simp only [List.mem_flatMap, List.mem_map, List.mem_range, Prod.mk.injEq]
        constructor
        · rintro ⟨p, hp, i, -, rfl, rfl⟩; exact hp
        · intro h; exact ⟨e.1, h, r, hr r List.mem_cons_self, rfl, rfl⟩
      by_cases h : e.1 ∈ keys
      · rw [if_pos (by simpa using hiff.mpr h), if_pos (by simpa using h), List.map_cons, ih']
      · have hn : decide (e.1 ∈ keys) = false := by simpa using h
        rw [hn, if_neg (by decide : ¬ (false = true))]
        split
        · rename_i h'
          refine absurd (hiff.mp ?_) h
          have hd : ∀ (p : Prop) (i : Decidable p), @decide p i = true → p := fun p i h => @of_decide_eq_true p i h
          exact hd _ _ h'
        · exact ih'

/-- C57: on the local backend the sharded filter returns the same list as the plain filter, for every sharding
factor and every random choice of shards. -/
theorem C57_sharded_filter_local (col : List (K × V)) (keys : List K) (factor : ℕ) (rnd : List ℕ)
    (h : 1 < factor → rnd.length = col.length ∧ ∀ r ∈ rnd, r < factor) :
    filterSharded (fun c ks => filterByKey c ks) col keys factor rnd = filterByKey col keys := by
  unfold filterSharded
  split
  · rename_i hgt
    exact zipWith_filter col keys factor rnd (h hgt).1 (h hgt).2
  · rfl

/-- C57: on any backend whose key filter keeps the rows of the in-memory filter in some order (see `C38_beam_join`),
so does the sharded filter. -/
theorem C57_sharded_filter (filter : {J W : Type} → [DecidableEq J] → List (J × W) → List J → List (J × W))
    (hf : ∀ {J W : Type} [DecidableEq J] (c : List (J × W)) (ks : List J), (filter c ks).Perm (filterByKey c ks))
    (col : List (K × V)) (keys : List K) (factor : ℕ) (rnd : List ℕ)
    (h : 1 < factor → rnd.length = col.length ∧ ∀ r ∈ rnd, r < factor) :
    (filterSharded filter col keys factor rnd).Perm (filterByKey col keys) := by
  unfold filterSharded
  split
  · have := (hf (List.zipWith (fun kv r => ((kv.1, r), kv.2)) col rnd)
      (keys.flatMap fun p => (List.range factor).map fun i => (p, i))).map fun e => (e.1.1, e.2)
    refine this.trans (List.Perm.of_eq ?_)
    rename_i hgt
    exact zipWith_filter col keys factor rnd (h hgt).1 (h hgt).2
  · exact hf col keys

theorem count_sharded [BEq (K × ℕ)] [LawfulBEq (K × ℕ)] (keys : List K) (factor r : ℕ) (k : K) (hr : r < factor) :
    (keys.flatMap fun p => (List.range factor).map fun i => (p, i)).count (k, r) = keys.count k := by
  induction keys with
  | nil => rfl
  | cons x keys ih =>
    rw [List.flatMap_cons, List.count_append, ih, List.count_cons]
    by_cases h : x = k
    · subst h
      have : ((List.range factor).map fun i => (x, i)).count (x, r) = 1 := by
        apply List.count_eq_one_of_mem
        · exact List.nodup_range.map fun a b hab => by simpa using hab
        · exact List.mem_map.mpr ⟨r, List.mem_range.mpr hr, rfl⟩
      rw [this]; simp; omega
    · have : ((List.range factor).map fun i => (x, i)).count (k, r) = 0 := by
        rw [List.count_eq_zero]
        simp [h]
      rw [this]; simp [h]

/-- C57: on Spark the sharded filter has the multiplicities of the plain join. -/
theorem C57_sharded_filter_spark (filter : {J W : Type} → [DecidableEq J] → List (J × W) → List J → List (J × W))
    (hf : ∀ {J W : Type} [DecidableEq J] (c : List (J × W)) (ks : List J),
      (filter c ks).Perm (c.flatMap fun e => List.replicate (ks.count e.1) e))
    (col : List (K × V)) (keys : List K) (factor : ℕ) (rnd : List ℕ)
    (h : 1 < factor → rnd.length = col.length ∧ ∀ r ∈ rnd, r < factor) :
    (filterSharded filter col keys factor rnd).Perm (col.flatMap fun e => List.replicate (keys.count e.1) e) := by
  unfold filterSharded
  split
  · have := (hf (List.zipWith (fun kv r => ((kv.1, r), kv.2)) col rnd)
      (keys.flatMap fun p => (List.range factor).map fun i => (p, i))).map fun e => (e.1.1, e.2)
    refine this.trans (List.Perm.of_eq ?_)
    rename_i hgt
    obtain ⟨hl, hr⟩ := h hgt
    clear this h
    induction col generalizing rnd with
    | nil => cases rnd <;> rfl
    | cons e col ih =>
      cases rnd with
      | nil => simp at hl
      | cons r rnd =>
        rw [List.zipWith_cons_cons, List.flatMap_cons, List.map_append,
          ih rnd (by simpa using hl) fun x hx => hr x (List.mem_cons_of_mem _ hx), List.flatMap_cons]
        dsimp only
        rw [@count_sharded K _ instBEqOfDecidableEq inferInstance _ _ _ _ (hr r List.mem_cons_self), List.map_replicate]
  · exact hf col keys

example : filterSharded (fun c ks => filterByKey c ks) [(1, 10), (2, 20), (1, 11)] [1] 3 [2, 0, 1] = [(1, 10), (1, 11)]
    ∧ size localOps [5, 5, 7] = [3] ∧ size localOps ([] : List ℕ) = []
    ∧ minMaxPerKey localOps [(1, 5), (2, 7), (1, (-3 : ℚ))] = [(1, (-3, 5)), (2, (7, 7))] := by decide +kernel

end PDP.Backend
