import Verif.Analysis.Compound
import Verif.Engine.Exact

/-!
# The utility analysis engine (`analysis/utility_analysis_engine.py`, `analysis/contribution_bounders.py`)

From rows to the metrics of every partition, given the internal combiners.  How the combiners are created from the
configurations and how the results are packed into reports is modelled elsewhere.
-/

set_option linter.unusedVariables false
set_option linter.unusedSectionVars false

namespace PDP.Analysis

open PDP
open PDP.Engine (MergeTree IsCombine LawfulCombine dropPartitions addEmptyPublic usersIn valuesIn relevant localCombine)

variable {P K : Type} [DecidableEq P] [DecidableEq K]

/-! ### Model -/

/-- A value which is added as a number. -/
def Val.num : Val → ℚ
  | .scalar x => x
  | .cols _ => 0

/-- A value which is added column by column. -/
def Val.columns : Val → List ℚ
  | .scalar _ => []
  | .cols xs => xs

/-- `_sum_values` (`contribution_bounders.py:142-164`).  `np.array(values).sum(axis=0)` fails if the values have different
numbers of columns; here missing columns count as 0. -/
def sumValues : List Val → Val
  | [] => .scalar 0
  | [v] => v
  | .scalar x :: v :: vs => .scalar ((.scalar x :: v :: vs).map Val.num).sum
  | .cols xs :: v :: vs =>
    .cols ((List.range xs.length).map fun i => ((.cols xs :: v :: vs).map fun u => u.columns.getD i 0).sum)

/-- `L0LinfAnalysisContributionBounder` (`contribution_bounders.py:39-78`).  `keep` is the sampler of partitions, always true if
the sampling probability is 1.  The fourth element, the number of contributions of the user, is not used by the combiners
(`per_partition_combiners.py:398-408`) and left out. -/
def boundL0LinfAnalysis (B : Backend) (keep : K → Bool) (col : List (P × K × Val)) : List ((P × K) × Data) :=
  let col := col.map fun r => (r.1, (r.2.1, r.2.2))
  let col := B.groupByKey col
  let col := collectPerPartition col
  col.flatMap fun e =>
    (e.2.filter fun x => keep x.1).map fun x => ((e.1, x.1), ⟨x.2.length, sumValues x.2, e.2.length⟩)

/-- `LinfAnalysisContributionBounder` (`contribution_bounders.py:102-136`). -/
def boundLinfAnalysis (B : Backend) (keep : K → Bool) (col : List (P × K × Val)) : List ((P × K) × Data) :=
  let col := col.filter fun r => keep r.2.1
  let col := col.map fun r => ((r.1, r.2.1), r.2.2)
  let col := B.groupByKey col
  col.map fun e => (e.1, ⟨e.2.length, sumValues e.2, 1⟩)

/-- Input of the analysis: rows (privacy id, partition, value), or pre-aggregated rows (partition, data of one user), which have
the dummy privacy id `None` (`utility_analysis_engine.py:169-181`). -/
inductive Input (P K : Type) where
  | raw (rows : List (P × K × Val))
  | preAggregated (rows : List (K × Data))

/-- The data of the users of the partitions: non-public partitions are dropped (`dp_engine.py:123-131`), then the bounder chosen
by `_create_contribution_bounder` (`utility_analysis_engine.py:89-100`) is applied (`NoOpContributionBounder`,
`contribution_bounders.py:166-174`, for pre-aggregated data), then the privacy id is dropped (`dp_engine.py:139-140`). -/
def analysisData (B : Backend) (keep : K → Bool) (p : Engine.Params) (pub : Option (List K)) : Input P K → List (K × Data)
  | .preAggregated rows => (dropPartitions p pub (rows.map fun r => ((), r.1, r.2))).map fun r => (r.2.1, r.2.2)
  | .raw rows =>
    let rows := dropPartitions p pub rows
    let col := if p.performCross then boundL0LinfAnalysis B keep rows else boundLinfAnalysis B keep rows
    col.map fun e => (e.1.2, e.2)

/-- `merge_accumulators` inside a pipeline: a failure is passed on. -/
def mergeStates (combs : List Comb) (a b : Except Err State) : Except Err State := do
  let x ← a
  let y ← b
  mergeState combs x y

/-- `UtilityAnalysisEngine.analyze` (`utility_analysis_engine.py:53-87`) through `DPEngine._aggregate`
(`dp_engine.py:109-189`): accumulators of the users, empty accumulators of the public partitions, merging, and the metrics
of every partition.  There is no selection of partitions (`utility_analysis_engine.py:159-167`) and no thresholding.  The
failure of a partition, which in the code fails the whole pipeline, is here the result of this partition. -/
def analyze (B : Backend) (comb : List (K × Except Err State) → List (K × Except Err State)) (approx : Moments → ℕ × List ℚ)
    (combs : List Comb) (keep : K → Bool) (p : Engine.Params) (pub : Option (List K)) (input : Input P K) :
    List (K × Except Err (List Metric)) :=
  let accs : List (K × Except Err State) := (analysisData B keep p pub input).map fun e => (e.1, .ok (createState (some e.2)))
  let accs := addEmptyPublic (fun _ : List Unit => .ok (createState none)) pub accs
  (comb accs).map fun e => (e.1, e.2 >>= computeMetrics approx combs)

/-! ### Specification -/

/-- All values are numbers, or all have the same number of columns. -/
def SameShape (vs : List Val) : Prop :=
  (∀ v ∈ vs, ∃ x, v = .scalar x) ∨ ∃ n, ∀ v ∈ vs, ∃ xs, v = .cols xs ∧ xs.length = n

/-- What the analysis has to know of user `u` of partition `k`: number of rows, sum of the values and number of partitions (1 if
the number of partitions per user is not limited). -/
def userData (performCross : Bool) (rows : List (P × K × Val)) (k : K) (u : P) : Data :=
  ⟨(cell u k rows).length, sumValues (cell u k rows), if performCross then (partitionsOf u rows).length else 1⟩

/-- The values fit the combiner. -/
def Comb.FitsValue : Comb → Val → Prop
  | .sum none _ _ _, v => ∃ x, v = .scalar x
  | .sum (some i) _ _ _, v => ∃ xs, v = .cols xs ∧ i < xs.length
  | _, _ => True

/-! ### Lemmas: sums of values -/

theorem sumValues_scalar {vs : List Val} (h : ∀ v ∈ vs, ∃ x, v = .scalar x) : sumValues vs = .scalar (vs.map Val.num).sum := by
  match vs with
  | [] => rfl
  | [v] => obtain ⟨x, rfl⟩ := h v (by simp); simp [sumValues, Val.num]
  | v :: w :: vs => obtain ⟨x, rfl⟩ := h v (by simp); rfl

theorem sumValues_cols {vs : List Val} (hne : vs ≠ []) {n : ℕ} (h : ∀ v ∈ vs, ∃ xs, v = .cols xs ∧ xs.length = n) :
    sumValues vs = .cols ((List.range n).map fun i => (vs.map fun u => u.columns.getD i 0).sum) := by
  match vs with
  | [] => exact absurd rfl hne
  | [v] =>
    obtain ⟨xs, rfl, rfl⟩ := h v (by simp)
    simp only [sumValues, List.map_cons, List.map_nil, List.sum_cons, List.sum_nil, add_zero, Val.columns, Val.cols.injEq]
    apply List.ext_getElem
    · simp
    · intro i h1 h2
      simp [List.getD_eq_getElem?_getD, List.getElem?_eq_getElem h1]
  | v :: w :: vs => obtain ⟨xs, rfl, rfl⟩ := h v (by simp); rfl

theorem sumValues_perm {a b : List Val} (h : a.Perm b) (hs : SameShape a) : sumValues a = sumValues b := by
  rcases hs with hs | ⟨n, hs⟩
  · rw [sumValues_scalar hs, sumValues_scalar fun v hv => hs v (h.mem_iff.2 hv), (h.map _).sum_eq]
  · by_cases hne : a = []
    · subst hne; rw [List.nil_perm.1 h]
    · rw [sumValues_cols hne hs, sumValues_cols (fun hb => hne (by subst hb; exact List.perm_nil.1 h))
        fun v hv => hs v (h.mem_iff.2 hv)]
      congr 1
      exact List.map_congr_left fun i _ => (h.map _).sum_eq

theorem SameShape.subset {a b : List Val} (h : SameShape a) (hs : ∀ v ∈ b, v ∈ a) : SameShape b :=
  h.imp (fun h v hv => h v (hs v hv)) fun ⟨n, h⟩ => ⟨n, fun v hv => h v (hs v hv)⟩

theorem fits_sum {c : Comb} {vs : List Val} (hne : vs ≠ []) (hs : SameShape vs) (hf : ∀ v ∈ vs, c.FitsValue v) (n m : ℕ) :
    c.Fits ⟨n, sumValues vs, m⟩ := by
  cases c with
  | raw => trivial
  | selection _ _ => trivial
  | count _ _ => trivial
  | idCount _ => trivial
  | sum col lo hi l0 =>
    cases col with
    | none => exact ⟨_, sumValues_scalar hf⟩
    | some i =>
      obtain ⟨v, hv⟩ := List.exists_mem_of_ne_nil _ hne
      obtain ⟨xs, rfl, hi⟩ := hf v hv
      rcases hs with hs | ⟨n', hs⟩
      · obtain ⟨x, hx⟩ := hs _ hv; simp at hx
      · obtain ⟨ys, hy, hl⟩ := hs _ hv
        obtain rfl : xs = ys := by simpa using hy
        refine ⟨_, sumValues_cols hne hs, ?_⟩
        simpa [← hl] using hi

/-! ### Lemmas: the bounders -/

/-- Entries of users with their rows, one per user and partition which is sampled. -/
structure FullEntries (keep : K → Bool) (rows : List (P × K × Val)) (kept : List ((P × K) × List Val)) : Prop where
  once : (kept.map Prod.fst).Nodup
  nonempty : ∀ e ∈ kept, e.2 ≠ []
  behind : (rowsBehind kept).Perm (rows.filter fun r => keep r.2.1)

theorem linfAnalysis_entries (B : Backend) (hB : B.Lawful) (keep : K → Bool) (rows : List (P × K × Val)) :
    ∃ kept, FullEntries keep rows kept ∧
      boundLinfAnalysis B keep rows = kept.map fun e => (e.1, ⟨e.2.length, sumValues e.2, 1⟩) := by
  obtain ⟨kept, h1, h2, h3⟩ := noOp_kept B hB (id : List Val → List Val) (rows.filter fun r => keep r.2.1)
  have hk : B.groupByKey (byPair (rows.filter fun r => keep r.2.1)) = kept := by
    have : (boundNoOp B id (rows.filter fun r => keep r.2.1)) = B.groupByKey (byPair (rows.filter fun r => keep r.2.1)) := by
      show (B.groupByKey (byPair _)).map (fun e => (e.1, id e.2)) = _
      simp
    rw [← this, h1]; simp
  exact ⟨kept, ⟨h2.once, h2.nonempty, h3⟩, by rw [← hk]; rfl⟩

theorem nest_filterKeys (g : List (P × List (K × List Val))) (keep : K → Bool) :
    nest (g.map fun e => (e.1, e.2.filter fun x => keep x.1)) = (nest g).filter fun e => keep e.1.2 := by
  induction g with
  | nil => rfl
  | cons e g ih =>
    rw [List.map_cons, nest_cons, nest_cons, List.filter_append, ih]
    congr 1
    rw [List.filter_map]
    rfl

theorem l0LinfAnalysis_entries (B : Backend) (hB : B.Lawful) (keep : K → Bool) (rows : List (P × K × Val)) :
    ∃ kept, FullEntries keep rows kept ∧
      boundL0LinfAnalysis B keep rows
        = kept.map fun e => (e.1, ⟨e.2.length, sumValues e.2, (partitionsOf e.1.1 rows).length⟩) := by
  have hgr := hB.group rows
  set g := B.groupByKey rows with hg
  obtain ⟨h1, h2⟩ := nest_collect_rows g hgr.nodup
  refine ⟨(nest (collectPerPartition g)).filter fun e => keep e.1.2, ⟨?_, ?_, ?_⟩, ?_⟩
  · exact h1.sublist (List.filter_sublist.map _)
  · exact fun e he => (h2 e (List.mem_filter.mp he).1).1
  · have h3 := (rows_nest_collect g hgr.nodup).trans hgr.perm
    refine List.Perm.trans ?_ (h3.filter fun r => keep r.2.1)
    unfold rowsBehind
    rw [List.filter_flatMap]
    have : ∀ l : List ((P × K) × List Val),
        (l.filter fun e => keep e.1.2).flatMap (fun e => e.2.map fun v => (e.1.1, e.1.2, v))
          = l.flatMap fun e => (e.2.map fun v => (e.1.1, e.1.2, v)).filter fun r => keep r.2.1 := by
      intro l
      induction l with
      | nil => rfl
      | cons e l ih =>
        rw [List.flatMap_cons, ← ih, List.filter_cons]
        cases hk : keep e.1.2
        · have : (e.2.map fun v => (e.1.1, e.1.2, v)).filter (fun r => keep r.2.1) = [] := by
            rw [List.filter_eq_nil_iff]
            intro r hr
            obtain ⟨v, -, rfl⟩ := List.mem_map.mp hr
            simp [hk]
          simp [this]
        · have : (e.2.map fun v => (e.1.1, e.1.2, v)).filter (fun r => keep r.2.1)
              = e.2.map fun v => (e.1.1, e.1.2, v) := by
            rw [List.filter_eq_self]
            intro r hr
            obtain ⟨v, -, rfl⟩ := List.mem_map.mp hr
            simp [hk]
          simp [this]
    rw [this]
  · unfold boundL0LinfAnalysis
    dsimp only
    have hid : rows.map (fun r => (r.1, (r.2.1, r.2.2))) = rows := by simp
    rw [hid, ← hg]
    have hcard : ∀ e ∈ collectPerPartition g, e.2.length = (partitionsOf e.1 rows).length := by
      intro e he
      obtain ⟨x, hx, rfl⟩ := List.mem_map.mp he
      have := (partitions_of_group g rows hgr hx).length_eq
      simpa using this
    rw [← nest_filterKeys]
    generalize hc : collectPerPartition g = c at hcard
    clear hc h1 h2
    induction c with
    | nil => rfl
    | cons e c ih =>
      rw [List.flatMap_cons, List.map_cons, nest_cons, List.map_append, ih fun x hx => hcard x (by simp [hx])]
      congr 1
      rw [List.map_map, hcard e (by simp)]
      rfl

/-- The data of the users of partition `k`. -/
theorem entries_userData {keep : K → Bool} {rows : List (P × K × Val)} {kept : List ((P × K) × List Val)}
    (h : FullEntries keep rows kept) (hs : SameShape (rows.map fun r => r.2.2)) (cross : Bool) (k : K) :
    (valuesOf k (kept.map fun e => (e.1.2, (⟨e.2.length, sumValues e.2,
        if cross then (partitionsOf e.1.1 rows).length else 1⟩ : Data)))).Perm
      ((if keep k then usersIn k rows else []).map (userData cross rows k)) := by
  have hu := Engine.users_perm h.behind h.once h.nonempty k
  have hcell : ∀ e ∈ kept, e.2.Perm (cell e.1.1 e.1.2 rows) ∧ keep e.1.2 = true := by
    intro e he
    have h1 := Engine.entries_cells h.behind h.once e he
    have hk : keep e.1.2 = true := by
      by_contra hk
      apply h.nonempty e he
      have : cell e.1.1 e.1.2 (rows.filter fun r => keep r.2.1) = [] := by
        unfold cell
        rw [List.map_eq_nil_iff, List.filter_eq_nil_iff]
        intro r hr
        have := (List.mem_filter.mp hr).2
        simp only [decide_eq_true_eq, not_and]
        rintro - h2
        rw [h2] at this
        exact hk this
      rw [this] at h1
      exact List.perm_nil.1 h1
    refine ⟨?_, hk⟩
    convert h1 using 1
    unfold cell
    rw [List.filter_filter]
    congr 1
    apply List.filter_congr
    intro r _
    by_cases hr : r.2.1 = e.1.2
    · simp [hr, hk]
    · simp [hr]
  have hkeep : usersIn k (rows.filter fun r => keep r.2.1) = if keep k then usersIn k rows else [] := by
    unfold usersIn
    rw [List.filter_filter]
    cases hk : keep k
    · have : (rows.filter fun r => decide (r.2.1 = k) && keep r.2.1) = [] := by
        rw [List.filter_eq_nil_iff]
        intro r _
        by_cases hr : r.2.1 = k
        · simp [hr, hk]
        · simp [hr]
      rw [this]; rfl
    · simp only [if_true]
      congr 2
      apply List.filter_congr
      intro r _
      by_cases hr : r.2.1 = k
      · simp [hr, hk]
      · simp [hr]
  rw [hkeep] at hu
  refine List.Perm.trans ?_ (hu.map (userData cross rows k))
  rw [List.map_map]
  have : valuesOf k (kept.map fun e => (e.1.2, (⟨e.2.length, sumValues e.2,
        if cross then (partitionsOf e.1.1 rows).length else 1⟩ : Data)))
      = (kept.filter fun x => x.1.2 = k).map fun e => (⟨e.2.length, sumValues e.2,
        if cross then (partitionsOf e.1.1 rows).length else 1⟩ : Data) := by
    unfold valuesOf
    rw [List.filter_map, List.map_map]
    rfl
  rw [this]
  apply List.Perm.of_eq
  apply List.map_congr_left
  intro e he
  obtain ⟨h1, h2⟩ := List.mem_filter.mp he
  simp only [decide_eq_true_eq] at h2
  subst h2
  have hp := (hcell e h1).1
  have hsh : SameShape (cell e.1.1 e.1.2 rows) := hs.subset fun v hv => by
    obtain ⟨r, hr, rfl⟩ := List.mem_map.mp hv
    exact List.mem_map.mpr ⟨r, (List.mem_filter.mp hr).1, rfl⟩
  simp only [Function.comp, userData, hp.length_eq, sumValues_perm hp.symm hsh]

/-! ### Lemmas: merging -/

theorem createState_injective : Function.Injective (fun d => (Except.ok (createState d) : Except Err State)) := by
  intro a b h
  have h : createState a = createState b := by simpa using h
  cases a <;> cases b <;> simp [createState] at h ⊢
  rename_i x y
  cases x; cases y
  simp_all

theorem tree_of_leaves {A C : Type} (f : C → A) : ∀ t : MergeTree A, (∀ a ∈ t.leaves, ∃ c, f c = a) → ∃ t', MergeTree.map f t' = t
  | .leaf a, h => by
    obtain ⟨c, rfl⟩ := h a (by simp [MergeTree.leaves])
    exact ⟨.leaf c, rfl⟩
  | .node l r, h => by
    obtain ⟨l', rfl⟩ := tree_of_leaves f l fun a ha => h a (by simp [MergeTree.leaves, ha])
    obtain ⟨r', rfl⟩ := tree_of_leaves f r fun a ha => h a (by simp [MergeTree.leaves, ha])
    exact ⟨.node l' r', rfl⟩

theorem leaves_mapped {A C : Type} (f : C → A) : ∀ t : MergeTree C, (MergeTree.map f t).leaves = t.leaves.map f
  | .leaf _ => rfl
  | .node l r => by simp [MergeTree.map, MergeTree.leaves, leaves_mapped f l, leaves_mapped f r]

theorem eval_states (combs : List Comb) : ∀ t : MergeTree (Option Data),
    (MergeTree.map (fun d => (Except.ok (createState d) : Except Err State)) t).eval (mergeStates combs) = evalTree combs t
  | .leaf d => rfl
  | .node l r => by
    show mergeStates combs _ _ = _
    rw [eval_states combs l, eval_states combs r]
    rfl

/-- The result of a partition in terms of a merge tree over its users and empty accumulators. -/
theorem analyze_tree (B : Backend) (comb : List (K × Except Err State) → List (K × Except Err State)) (combs : List Comb)
    (hc : LawfulCombine (mergeStates combs) comb) (approx : Moments → ℕ × List ℚ) (keep : K → Bool) (p : Engine.Params)
    (pub : Option (List K)) (input : Input P K) :
    ((analyze B comb approx combs keep p pub input).map Prod.fst).Nodup ∧
    (∀ k, k ∈ (analyze B comb approx combs keep p pub input).map Prod.fst ↔
      k ∈ (analysisData B keep p pub input).map Prod.fst ∨ ∃ ps, pub = some ps ∧ k ∈ ps) ∧
    ∀ e ∈ analyze B comb approx combs keep p pub input, ∃ t : MergeTree (Option Data),
      (usersOf t).Perm (valuesOf e.1 (analysisData B keep p pub input)) ∧ (pub = none → none ∉ t.leaves) ∧
      e.2 = analyse approx combs t := by
  set f : Option Data → Except Err State := fun d => .ok (createState d) with hf
  set D := analysisData B keep p pub input with hD
  set leaves : List (K × Option Data) := addEmptyPublic (fun _ : List Unit => none) pub (D.map fun e => (e.1, some e.2)) with hl
  set accs : List (K × Except Err State) :=
    addEmptyPublic (fun _ : List Unit => .ok (createState none)) pub (D.map fun e => (e.1, .ok (createState (some e.2)))) with ha
  have hal : accs = leaves.map fun e => (e.1, f e.2) := by
    rw [ha, hl]
    unfold addEmptyPublic
    cases pub with
    | none => simp [hf]
    | some ps => simp [hf, Function.comp_def]
  have hC := hc accs
  have hout : analyze B comb approx combs keep p pub input = (comb accs).map fun e => (e.1, e.2 >>= computeMetrics approx combs) := rfl
  have hkeys : (analyze B comb approx combs keep p pub input).map Prod.fst = (comb accs).map Prod.fst := by
    rw [hout]; simp [Function.comp_def]
  refine ⟨by rw [hkeys]; exact hC.nodup, fun k => ?_, ?_⟩
  · rw [hkeys, hC.keys, hal, hl]
    unfold addEmptyPublic
    cases pub with
    | none => simp
    | some ps => simp
  · intro e he
    rw [hout] at he
    obtain ⟨x, hx, rfl⟩ := List.mem_map.mp he
    obtain ⟨t, ht1, ht2⟩ := hC.values x hx
    have hv : valuesOf x.1 accs = (valuesOf x.1 leaves).map f := by
      rw [hal]
      unfold valuesOf
      rw [List.filter_map, List.map_map, List.map_map]
      rfl
    rw [hv] at ht1
    obtain ⟨t', rfl⟩ := tree_of_leaves f t fun a ha => by
      obtain ⟨c, -, hc⟩ := List.mem_map.mp (ht1.mem_iff.1 ha)
      exact ⟨c, hc⟩
    rw [leaves_mapped, List.map_perm_map_iff createState_injective] at ht1
    refine ⟨t', ?_, ?_, ?_⟩
    · unfold usersOf
      refine (ht1.filterMap id).trans (List.Perm.of_eq ?_)
      rw [hl]
      unfold addEmptyPublic
      have h1 : ∀ l : List (K × Data), (valuesOf x.1 (l.map fun e => (e.1, some e.2))).filterMap id = valuesOf x.1 l := by
        intro l
        unfold valuesOf
        rw [List.filter_map, List.map_map, List.filterMap_map]
        simp only [Function.comp_def, id, List.filterMap_eq_map']
      cases pub with
      | none => exact h1 D
      | some ps =>
        dsimp only
        rw [valuesOf_append, List.filterMap_append, h1]
        have : (valuesOf x.1 (ps.map fun k => (k, (none : Option Data)))).filterMap id = [] := by
          rw [List.filterMap_eq_nil_iff]
          intro a ha
          have := mem_valuesOf.mp ha
          obtain ⟨k, -, hk⟩ := List.mem_map.mp this
          have : a = none := by simpa using (Prod.ext_iff.mp hk).2.symm
          rw [this]; rfl
        rw [this, List.append_nil]
    · rintro rfl hmem
      have := mem_valuesOf.mp (ht1.mem_iff.1 hmem)
      rw [hl] at this
      unfold addEmptyPublic at this
      obtain ⟨y, -, hy⟩ := List.mem_map.mp this
      simp at hy
    · show x.2 >>= computeMetrics approx combs = analyse approx combs t'
      rw [ht2]
      have := eval_states combs t'
      rw [hf, this]
      rfl

/-- The data of the users for raw input. -/
theorem analysisData_raw (B : Backend) (hB : B.Lawful) (keep : K → Bool) (p : Engine.Params) (pub : Option (List K))
    (rows : List (P × K × Val)) (hf : p.publicFiltered = true → ∀ ps, pub = some ps → ∀ r ∈ rows, r.2.1 ∈ ps)
    (hs : SameShape ((relevant pub rows).map fun r => r.2.2)) (k : K) :
    (valuesOf k (analysisData B keep p pub (.raw rows))).Perm
      ((if keep k then usersIn k (relevant pub rows) else []).map (userData p.performCross (relevant pub rows) k)) := by
  unfold analysisData
  dsimp only
  rw [Engine.dropPartitions_eq_relevant p pub rows hf]
  cases hc : p.performCross with
  | true =>
    obtain ⟨kept, h1, h2⟩ := l0LinfAnalysis_entries B hB keep (relevant pub rows)
    rw [if_pos rfl, h2, List.map_map]
    exact entries_userData h1 hs true k
  | false =>
    obtain ⟨kept, h1, h2⟩ := linfAnalysis_entries B hB keep (relevant pub rows)
    rw [if_neg (by simp), h2, List.map_map]
    exact entries_userData h1 hs false k

end PDP.Analysis
