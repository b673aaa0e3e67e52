import Verif.Backend.Spark

/-!
# A dataset on which the placement of the rows decides the sample

Every user has `2 c` rows, the last one with value 1 and the others with value 0, and rows are placed in blocks of `c`.  One
more row in front of them shifts all blocks.
-/

set_option linter.unusedVariables false

namespace PDP.Backend

open PDP.Engine (MergeTree reduce)

variable {K : Type} [DecidableEq K]

/-- The rows of a user: `2 c - 1` times the value 0, then the value 1. -/
def userRows (c : ℕ) (k : K) : List (K × ℚ) := List.replicate (2 * c - 1) (k, 0) ++ [(k, 1)]

/-- The pair of lists `x`, `y` with one element each was sampled to `y`. -/
def TakesSecond (pick : List Bool → ℕ → ℕ → List ℕ) (path : List Bool) : Prop := pick path 2 1 = [1]

instance (pick : List Bool → ℕ → ℕ → List ℕ) (path : List Bool) : Decidable (TakesSecond pick path) :=
  inferInstanceAs (Decidable (_ = _))

/-! ### Blocks -/

theorem mem_userRows {c : ℕ} {k : K} {x : K × ℚ} (h : x ∈ userRows c k) : x.1 = k := by
  simp only [userRows, List.mem_append, List.mem_replicate, List.mem_singleton] at h
  rcases h with ⟨-, rfl⟩ | rfl <;> rfl

theorem userRows_split {c : ℕ} (hc : 2 ≤ c) (k : K) :
    userRows c k = List.replicate c (k, 0) ++ (List.replicate (c - 1) (k, 0) ++ [(k, 1)]) := by
  rw [userRows, ← List.append_assoc, ← List.replicate_add]
  congr 2
  omega

theorem userRows_split' {c : ℕ} (hc : 2 ≤ c) (k : K) :
    userRows c k = List.replicate (c - 1) (k, 0) ++ (List.replicate c (k, 0) ++ [(k, 1)]) := by
  rw [userRows, ← List.append_assoc, ← List.replicate_add]
  congr 2
  omega

theorem blocks_users {c : ℕ} (hc : 2 ≤ c) (us : List K) : blocks c (us.flatMap (userRows c))
    = us.flatMap fun u => [List.replicate c (u, 0), List.replicate (c - 1) (u, 0) ++ [(u, 1)]] := by
  induction us with
  | nil => exact blocks_nil c
  | cons u us ih =>
    rw [List.flatMap_cons, List.flatMap_cons, userRows_split hc, List.append_assoc, blocks_append (by omega) (by simp),
      blocks_append (by omega) (by simp; omega), ih]
    rfl

theorem blocks_shifted {c : ℕ} (hc : 2 ≤ c) (x : K × ℚ) (u : K) (us : List K) :
    blocks c (x :: (u :: us).flatMap (userRows c))
      = (x :: List.replicate (c - 1) (u, 0)) :: List.replicate c (u, 0) :: blocks c ((u, 1) :: us.flatMap (userRows c)) := by
  rw [List.flatMap_cons, userRows_split' hc, List.append_assoc, ← List.cons_append,
    blocks_append (by omega) (by simp; omega), List.append_assoc, blocks_append (by omega) (by simp)]
  rfl

/-! ### The values of one key -/

/-- The reductions inside the blocks. -/
def inBlocks {V : Type} (bs : List (List (K × V))) (k : K) : List (MergeTree V) :=
  bs.filterMap fun b => reduce .node ((valuesOf k b).map .leaf)

theorem valuesOf_replicate_same {V : Type} (n : ℕ) (k : K) (v : V) : valuesOf k (List.replicate n (k, v)) = List.replicate n v := by
  induction n with
  | zero => rfl
  | succ n ih => rw [List.replicate_succ, valuesOf_cons, if_pos rfl, ih, List.replicate_succ]

theorem valuesOf_absent {V : Type} {k : K} {l : List (K × V)} (h : ∀ x ∈ l, x.1 ≠ k) : valuesOf k l = [] := by
  rw [valuesOf, List.map_eq_nil_iff, List.filter_eq_nil_iff]
  intro x hx; simpa using h x hx

theorem inBlocks_absent {V : Type} {k : K} {bs : List (List (K × V))} (h : ∀ x ∈ bs.flatten, x.1 ≠ k) : inBlocks bs k = [] := by
  rw [inBlocks, List.filterMap_eq_nil_iff]
  intro b hb
  rw [valuesOf_absent fun x hx => h x (List.mem_flatten.mpr ⟨b, hb, hx⟩)]
  rfl

/-- A reduction of zeros. -/
def Zeros (t : MergeTree ℚ) : Prop := ∀ v ∈ t.leaves, v = 0

theorem reduce_zeros {n : ℕ} (hn : n ≠ 0) : ∃ t : MergeTree ℚ, Zeros t ∧
    reduce .node ((List.replicate n (0 : ℚ)).map .leaf) = some t := by
  obtain ⟨t, ht⟩ := reduce_isSome MergeTree.node ((List.replicate n (0 : ℚ)).map .leaf) (by simpa using hn)
  refine ⟨t, ?_, ht⟩
  intro v hv
  rw [reduce_node_leaves _ t ht] at hv
  simp [MergeTree.leaves] at hv
  exact hv.2

theorem reduce_concat {A : Type} (f : A → A → A) {l : List A} {t : A} (h : reduce f l = some t) (a : A) :
    reduce f (l ++ [a]) = some (f t a) := by
  cases l with
  | nil => simp [reduce] at h
  | cons b l =>
    simp only [reduce, Option.some.injEq] at h
    subst h
    simp [reduce]

theorem inBlocks_users {c : ℕ} (hc : 2 ≤ c) {us : List K} (hn : us.Nodup) {k : K} (hk : k ∈ us) :
    ∃ z z' : MergeTree ℚ, Zeros z ∧ Zeros z' ∧
      inBlocks (blocks c (us.flatMap (userRows c))) k = [z, .node z' (.leaf 1)] := by
  obtain ⟨z, hz, e1⟩ := reduce_zeros (n := c) (by omega)
  obtain ⟨z', hz', e2⟩ := reduce_zeros (n := c - 1) (by omega)
  refine ⟨z, z', hz, hz', ?_⟩
  rw [blocks_users hc]
  induction us with
  | nil => simp at hk
  | cons u us ih =>
    rw [List.nodup_cons] at hn
    rw [List.flatMap_cons, inBlocks, List.filterMap_append, ← inBlocks, ← inBlocks]
    by_cases h : u = k
    · subst h
      rw [inBlocks_absent (bs := us.flatMap _) (k := u), List.append_nil]
      · unfold inBlocks
        rw [List.filterMap_cons, valuesOf_replicate_same, e1]
        dsimp only
        rw [List.filterMap_cons, valuesOf_append, valuesOf_replicate_same, List.map_append]
        have : valuesOf u [(u, (1 : ℚ))] = [1] := by simp [valuesOf]
        rw [this, List.map_singleton, reduce_concat _ e2]
        rfl
      · intro x hx
        rw [← blocks_users hc, flatten_blocks] at hx
        obtain ⟨v, hv, hx⟩ := List.mem_flatMap.mp hx
        rw [mem_userRows hx]
        rintro rfl
        exact hn.1 hv
    · rw [inBlocks_absent (bs := [_, _]), List.nil_append]
      · exact ih hn.2 ((List.mem_cons.mp hk).resolve_left fun e => h e.symm)
      · intro x hx
        simp only [List.flatten_cons, List.flatten_nil, List.append_nil, List.mem_append, List.mem_replicate,
          List.mem_singleton] at hx
        rcases hx with ⟨-, rfl⟩ | ⟨-, rfl⟩ | rfl <;> exact h

theorem inBlocks_first {c : ℕ} (hc : 2 ≤ c) (x : K × ℚ) {us : List K} (hx : x.1 ∉ us) :
    inBlocks (blocks c (x :: us.flatMap (userRows c))) x.1 = [.leaf x.2] := by
  cases us with
  | nil =>
    rw [List.flatMap_nil, blocks_cons (by omega) (by simp)]
    have h1 : List.take c [x] = [x] := List.take_of_length_le (by simp; omega)
    have h2 : List.drop c [x] = [] := List.drop_of_length_le (by simp; omega)
    rw [h1, h2, blocks_nil]
    simp [inBlocks, valuesOf, reduce]
  | cons u us =>
    have h : u ≠ x.1 := by rintro rfl; simp at hx
    have hr : ∀ n, ∀ y ∈ List.replicate n (u, (0 : ℚ)), y.1 ≠ x.1 := by
      intro n y hy
      rw [List.eq_of_mem_replicate hy]; exact h
    rw [blocks_shifted hc]
    unfold inBlocks
    rw [List.filterMap_cons, List.filterMap_cons, valuesOf_cons, if_pos rfl, valuesOf_absent (hr _), valuesOf_absent (hr _),
      ← inBlocks, inBlocks_absent]
    · rfl
    · rw [flatten_blocks]
      intro y hy
      rcases List.mem_cons.mp hy with rfl | hy
      · exact h
      · obtain ⟨v, hv, hy⟩ := List.mem_flatMap.mp hy
        rw [mem_userRows hy]
        rintro rfl
        exact hx (by simp [hv])

theorem inBlocks_shifted {c : ℕ} (hc : 2 ≤ c) {us : List K} (hn : us.Nodup) {k : K} (hk : k ∈ us) :
    ∃ z z' : MergeTree ℚ, Zeros z ∧ Zeros z' ∧ ∀ x : K × ℚ, x.1 ≠ k →
      inBlocks (blocks c (x :: us.flatMap (userRows c))) k = [z, z', .leaf 1] := by
  obtain ⟨z', hz', e1⟩ := reduce_zeros (n := c) (by omega)
  obtain ⟨z, hz, e2⟩ := reduce_zeros (n := c - 1) (by omega)
  refine ⟨z, z', hz, hz', ?_⟩
  induction us with
  | nil => simp at hk
  | cons u us ih =>
    intro x hx
    rw [List.nodup_cons] at hn
    rw [blocks_shifted hc]
    unfold inBlocks
    rw [List.filterMap_cons, List.filterMap_cons, valuesOf_cons, if_neg hx]
    by_cases h : u = k
    · subst h
      rw [valuesOf_replicate_same, valuesOf_replicate_same, e1, e2, ← inBlocks]
      dsimp only
      rw [inBlocks_first hc (u, 1) hn.1]
    · have hr : ∀ n, ∀ y ∈ List.replicate n (u, (0 : ℚ)), y.1 ≠ k := by
        intro n y hy
        rw [List.eq_of_mem_replicate hy]; exact h
      rw [valuesOf_absent (hr _), valuesOf_absent (hr _), ← inBlocks]
      exact ih hn.2 ((List.mem_cons.mp hk).resolve_left fun e => h e.symm) (u, 1) h

/-! ### The samples -/

theorem sample_zeros (rng : SparkRng) (stage : String) {J : Type} (key : J) (path : List Bool) {t : MergeTree ℚ} (h : Zeros t) :
    sampleTree (rng.pick stage key) 1 path t = [0] := by
  have hr := sparkReduced_spec 1 le_rfl t _ (sampleTree_reduced rng stage key 1 path t)
  have h1 : (sampleTree (rng.pick stage key) 1 path t).length = 1 := by
    rw [hr.2]
    have : t.leaves ≠ [] := by
      cases t with
      | leaf v => simp [MergeTree.leaves]
      | node l r =>
        have : ∀ t : MergeTree ℚ, t.leaves ≠ [] := by
          intro t
          induction t with
          | leaf v => simp [MergeTree.leaves]
          | node l r ih1 ih2 => simp [MergeTree.leaves, ih1]
        exact this _
    have := List.length_pos_iff.mpr this
    omega
  obtain ⟨v, hv⟩ := List.length_eq_one_iff.mp h1
  rw [hv]
  have : v ∈ t.leaves := hr.1.subset (by rw [hv]; simp)
  rw [h v this]

theorem pick_two (rng : SparkRng) (stage : String) {J : Type} (key : J) (path : List Bool) :
    rng.pick stage key path 2 1 = [0] ∨ rng.pick stage key path 2 1 = [1] := by
  obtain ⟨i, hi⟩ := List.length_eq_one_iff.mp (rng.length stage key path 2 1 (by norm_num))
  have := rng.lt stage key path 2 1 i (by rw [hi]; simp)
  rw [hi]
  have : i = 0 ∨ i = 1 := by omega
  rcases this with rfl | rfl <;> simp

theorem sample_pair (rng : SparkRng) (stage : String) {J : Type} (key : J) (path : List Bool) (l r : MergeTree ℚ) (a b : ℚ)
    (hl : sampleTree (rng.pick stage key) 1 (false :: path) l = [a])
    (hr : sampleTree (rng.pick stage key) 1 (true :: path) r = [b]) :
    sampleTree (rng.pick stage key) 1 path (.node l r)
      = [if TakesSecond (rng.pick stage key) path then b else a] := by
  simp only [sampleTree, hl, hr]
  have e1 : [a].length + [b].length = 2 := rfl
  rcases pick_two rng stage key path with h | h
  · have ht : ¬TakesSecond (rng.pick stage key) path := by rw [TakesSecond, h]; decide
    rw [if_neg ht, e1, show min 2 1 = 1 from rfl, h]
    simp [takeIndices]
  · have ht : TakesSecond (rng.pick stage key) path := h
    rw [if_pos ht, e1, show min 2 1 = 1 from rfl, h]
    simp [takeIndices]

/-- The value kept for a user without the additional row: 1 if two choices take the second list. -/
theorem sample_aligned (rng : SparkRng) (stage : String) {c : ℕ} (hc : 2 ≤ c) {us : List K} (hn : us.Nodup) {k : K}
    (hk : k ∈ us) {J : Type} (key : J) :
    ∃ t, sparkTree (blocks c (us.flatMap (userRows c))) k = some t ∧ sampleTree (rng.pick stage key) 1 [] t
      = [if TakesSecond (rng.pick stage key) [] ∧ TakesSecond (rng.pick stage key) [true] then 1 else 0] := by
  obtain ⟨z, z', hz, hz', h⟩ := inBlocks_users hc hn hk
  refine ⟨.node z (.node z' (.leaf 1)), ?_, ?_⟩
  · show reduce .node (inBlocks _ k) = _
    rw [h]; rfl
  · rw [sample_pair rng stage key [] _ _ 0 (if TakesSecond (rng.pick stage key) [true] then 1 else 0)
      (sample_zeros rng stage key _ hz) (sample_pair rng stage key [true] _ _ 0 1 (sample_zeros rng stage key _ hz') rfl)]
    by_cases h1 : TakesSecond (rng.pick stage key) [] <;> by_cases h2 : TakesSecond (rng.pick stage key) [true] <;>
      simp [h1, h2]

/-- The value kept for a user with the additional row: 1 if one choice takes the second list. -/
theorem sample_shifted (rng : SparkRng) (stage : String) {c : ℕ} (hc : 2 ≤ c) {us : List K} (hn : us.Nodup) {k : K}
    (hk : k ∈ us) (x : K × ℚ) (hx : x.1 ≠ k) {J : Type} (key : J) :
    ∃ t, sparkTree (blocks c (x :: us.flatMap (userRows c))) k = some t ∧ sampleTree (rng.pick stage key) 1 [] t
      = [if TakesSecond (rng.pick stage key) [] then 1 else 0] := by
  obtain ⟨z, z', hz, hz', h⟩ := inBlocks_shifted hc hn hk
  refine ⟨.node (.node z z') (.leaf 1), ?_, ?_⟩
  · show reduce .node (inBlocks _ k) = _
    rw [h x hx]; rfl
  · rw [sample_pair rng stage key [] _ _ 0 1 _ rfl]
    rw [sample_pair rng stage key [false] _ _ 0 0 (sample_zeros rng stage key _ hz) (sample_zeros rng stage key _ hz')]
    simp

/-- The value kept for the user of the additional row. -/
theorem sample_additional (rng : SparkRng) (stage : String) {c : ℕ} (hc : 2 ≤ c) {us : List K} (x : K × ℚ) (hx : x.1 ∉ us)
    {J : Type} (key : J) :
    ∃ t, sparkTree (blocks c (x :: us.flatMap (userRows c))) x.1 = some t ∧ sampleTree (rng.pick stage key) 1 [] t = [x.2] := by
  refine ⟨.leaf x.2, ?_, rfl⟩
  show reduce .node (inBlocks _ x.1) = _
  rw [inBlocks_first hc x hx]; rfl

end PDP.Backend
