import Verif.Engine.Release
import Verif.Lib.Group
import Mathlib.Algebra.Order.Ring.Rat
import Mathlib.Data.List.MinMax

/-!
# The DataFrame query builder (`pipeline_dp/dataframes.py`)
-/

set_option linter.unusedVariables false

namespace PDP.DataFrame

open PDP.Engine (Params Metric NoiseKind)

/-! ### Model: `QueryBuilder` -/

inductive Err where
  | valueError | notImplemented | typeError | keyError
  deriving DecidableEq

/-- A cell of a DataFrame. -/
inductive Cell where
  | str (s : String)
  | num (n : ℤ)
  deriving DecidableEq

/-- A partition key: a cell, or a tuple of cells. -/
inductive Key where
  | scalar (c : Cell)
  | tuple (cs : List Cell)
  deriving DecidableEq

/-- The accepted `by` arguments: a column name or a list of column names. -/
inductive By where
  | one (c : String)
  | many (cs : List String)
  deriving DecidableEq

/-- `_AggregationSpec` (`dataframes.py:247-261`). -/
structure Spec where
  metric : Metric
  input : Option String
  output : Option String
  minValue : Option ℚ := none
  maxValue : Option ℚ := none
  deriving DecidableEq

/-- `QueryBuilder.__init__` (`dataframes.py:284-300`): the fields. -/
structure Builder where
  columns : List String
  privacyColumn : String
  by_ : Option By
  publicKeys : Option (List Key)
  specs : List Spec
  maxPartitions : Option ℕ
  maxPerPartition : Option ℕ

/-- The constructor. -/
def Builder.new (columns : List String) (privacyColumn : String) : Except Err Builder :=
  if privacyColumn ∈ columns then .ok ⟨columns, privacyColumn, none, none, [], none, none⟩ else .error .valueError

/-- The `by` argument of a call; `other` is anything which is neither a string nor a list. -/
inductive ByArg where
  | str (c : String)
  | list (cs : List String)
  | other

/-- Arguments of `groupby`; `column` is the deprecated argument. -/
structure GroupBy where
  arg : ByArg
  maxGroups : ℕ
  maxPerGroup : ℕ
  publicKeys : Option (List Key) := none
  column : Option String := none

/-- The public calls which return the builder. -/
inductive Call where
  | groupby (g : GroupBy)
  | count (name : Option String)
  | sum (column : String) (minValue maxValue : Option ℚ) (name : Option String)
  | mean (column : String) (minValue maxValue : Option ℚ) (name : Option String)

/-- `groupby` (`dataframes.py:302-355`). -/
def groupby (b : Builder) (g : GroupBy) : Except Err Builder :=
  if g.column.isSome then .error .valueError
  else if b.by_.isSome then .error .valueError
  else
    match g.arg with
    | .str c =>
      if c ∈ b.columns then
        .ok { b with by_ := some (.one c), maxPartitions := some g.maxGroups, maxPerPartition := some g.maxPerGroup,
                     publicKeys := g.publicKeys }
      else .error .valueError
    | .list cs =>
      if cs.all fun c => c ∈ b.columns then
        .ok { b with by_ := some (.many cs), maxPartitions := some g.maxGroups, maxPerPartition := some g.maxPerGroup,
                     publicKeys := g.publicKeys }
      else .error .valueError
    | .other => .error .valueError

/-- `_add_aggregation` with `_check_by` (`dataframes.py:434-443`). -/
def addAggregation (b : Builder) (s : Spec) : Except Err Builder :=
  if b.by_.isNone then .error .notImplemented else .ok { b with specs := b.specs ++ [s] }

/-- One call (`dataframes.py:357-407` for the aggregations). -/
def call (b : Builder) : Call → Except Err Builder
  | .groupby g => groupby b g
  | .count name => addAggregation b ⟨.count, none, name, none, none⟩
  | .sum c lo hi name => addAggregation b ⟨.sum, some c, name, lo, hi⟩
  | .mean c lo hi name => addAggregation b ⟨.mean, some c, name, lo, hi⟩

/-- A sequence of calls on the builder object; a call which raises leaves the object as it was. -/
def calls (b : Builder) : List Call → Builder
  | [] => b
  | c :: cs =>
    match call b c with
    | .ok b' => calls b' cs
    | .error _ => calls b cs

/-- `Query` (`dataframes.py:138-244`). -/
structure Query where
  privacyColumn : String
  by_ : By
  input : Option String
  metrics : List (Metric × Option String)
  maxPartitions : Option ℕ
  maxPerPartition : Option ℕ
  minValue : Option ℚ
  maxValue : Option ℚ
  publicKeys : Option (List Key)

/-- `min(a) == max(a)` (`dataframes.py:485-486`) for a non-empty list. -/
def allValuesEqual (a : ℚ) (as : List ℚ) : Bool := as.foldl min a == as.foldl max a

/-- `_get_input_column` (`dataframes.py:450-460`). -/
def getInputColumn (specs : List Spec) : Except Err (Option String) :=
  let cols := specs.filterMap Spec.input
  if cols.dedup.length > 1 then .error .notImplemented else .ok cols.head?

/-- `_get_value_caps` (`dataframes.py:469-491`). -/
def getValueCaps (specs : List Spec) : Except Err (Option ℚ × Option ℚ) :=
  let need := (specs.map Spec.metric).filter fun m => !(m == .count || m == .privacyIdCount)
  if need = [] then .ok (none, none)
  else
    match specs.filterMap Spec.minValue, specs.filterMap Spec.maxValue with
    | lo :: los, hi :: his =>
      if !allValuesEqual lo los || !allValuesEqual hi his then .error .valueError else .ok (some lo, some hi)
    | _, _ => .error .valueError

/-- `build_query` (`dataframes.py:409-432`) with `_check_by`, `_check_aggregations_specs`, `_check_metrics`
(`dataframes.py:440-448, 462-466`). -/
def build (b : Builder) : Except Err Query :=
  match b.by_ with
  | none => .error .notImplemented
  | some by_ =>
    if b.specs = [] then .error .valueError
    else if (b.specs.map Spec.metric).dedup.length ≠ (b.specs.map Spec.metric).length then .error .valueError
    else
      match getInputColumn b.specs with
      | .error e => .error e
      | .ok input =>
        match getValueCaps b.specs with
        | .error e => .error e
        | .ok caps =>
          .ok ⟨b.privacyColumn, by_, input, b.specs.map fun s => (s.metric, s.output), b.maxPartitions, b.maxPerPartition,
            caps.1, caps.2, b.publicKeys⟩

/-! ### Specification: accepted queries -/

/-- The aggregation of a call. -/
def Call.spec? : Call → Option Spec
  | .groupby _ => none
  | .count name => some ⟨.count, none, name, none, none⟩
  | .sum c lo hi name => some ⟨.sum, some c, name, lo, hi⟩
  | .mean c lo hi name => some ⟨.mean, some c, name, lo, hi⟩

/-- The grouping of a `groupby` call which is valid on a DataFrame with these columns. -/
def GroupBy.by? (columns : List String) (g : GroupBy) : Option By :=
  if g.column.isSome then none
  else
    match g.arg with
    | .str c => if c ∈ columns then some (.one c) else none
    | .list cs => if ∀ c ∈ cs, c ∈ columns then some (.many cs) else none
    | .other => none

/-- The aggregations can be computed by one query. -/
structure Consistent (specs : List Spec) : Prop where
  some_aggregation : specs ≠ []
  each_once : (specs.map Spec.metric).Nodup
  one_column : ∀ s ∈ specs, ∀ t ∈ specs, ∀ c d, s.input = some c → t.input = some d → c = d
  caps : (∃ s ∈ specs, s.metric ≠ .count ∧ s.metric ≠ .privacyIdCount) →
    (∃ s ∈ specs, s.minValue.isSome) ∧ (∃ s ∈ specs, s.maxValue.isSome) ∧
    (∀ s ∈ specs, ∀ t ∈ specs, ∀ x y, s.minValue = some x → t.minValue = some y → x = y) ∧
    (∀ s ∈ specs, ∀ t ∈ specs, ∀ x y, s.maxValue = some x → t.maxValue = some y → x = y)

/-! ### Properties: the builder -/

theorem call_groupby_none (b : Builder) (h : b.by_ = none) (g : GroupBy) :
    match GroupBy.by? b.columns g with
    | some y => call b (.groupby g) =
        .ok { b with by_ := some y, maxPartitions := some g.maxGroups, maxPerPartition := some g.maxPerGroup,
                     publicKeys := g.publicKeys }
    | none => ∃ e, call b (.groupby g) = .error e := by
  show match GroupBy.by? b.columns g with
    | some y => groupby b g = _
    | none => ∃ e, groupby b g = .error e
  unfold groupby GroupBy.by?
  rw [h]
  by_cases hc : g.column.isSome = true
  · rw [if_pos hc, if_pos hc]; exact ⟨_, rfl⟩
  · rw [if_neg hc, if_neg hc]
    simp only [Option.isSome_none, Bool.false_eq_true, if_false]
    rcases g.arg with c | cs | _
    · dsimp only
      by_cases h' : c ∈ b.columns
      · rw [if_pos h']; dsimp only; rw [if_pos h']
      · rw [if_neg h']; dsimp only; rw [if_neg h']; exact ⟨_, rfl⟩
    · dsimp only
      by_cases h' : ∀ c ∈ cs, c ∈ b.columns
      · rw [if_pos h']; dsimp only
        rw [if_pos (by simpa using h')]
      · rw [if_neg h']; dsimp only
        rw [if_neg (by simpa using h')]; exact ⟨_, rfl⟩
    · exact ⟨_, rfl⟩

theorem calls_append (b : Builder) (cs ds : List Call) : calls b (cs ++ ds) = calls (calls b cs) ds := by
  induction cs generalizing b with
  | nil => rfl
  | cons c cs ih =>
    simp only [List.cons_append, calls]
    cases call b c <;> exact ih _

theorem calls_before (b : Builder) (h : b.by_ = none) (cs : List Call)
    (hcs : ∀ g, Call.groupby g ∈ cs → GroupBy.by? b.columns g = none) : calls b cs = b := by
  induction cs with
  | nil => rfl
  | cons c cs ih =>
    have : ∃ e, call b c = .error e := by
      cases c with
      | groupby g =>
        have := call_groupby_none b h g
        rw [hcs g (by simp)] at this
        exact this
      | count name => exact ⟨.notImplemented, by simp [call, addAggregation, h]⟩
      | sum c lo hi name => exact ⟨.notImplemented, by simp [call, addAggregation, h]⟩
      | mean c lo hi name => exact ⟨.notImplemented, by simp [call, addAggregation, h]⟩
    obtain ⟨e, he⟩ := this
    simp only [calls, he]
    exact ih fun g hg => hcs g (by simp [hg])

theorem calls_after (b : Builder) (y : By) (h : b.by_ = some y) (cs : List Call) :
    calls b cs = { b with specs := b.specs ++ cs.filterMap Call.spec? } := by
  induction cs generalizing b with
  | nil => simp [calls]
  | cons c cs ih =>
    cases c with
    | groupby g =>
      have : ∃ e, call b (.groupby g) = .error e := by
        refine ⟨.valueError, ?_⟩
        show groupby b g = _
        unfold groupby
        by_cases hc : g.column.isSome = true
        · rw [if_pos hc]
        · rw [if_neg hc, if_pos (by rw [h]; rfl)]
      obtain ⟨e, he⟩ := this
      simp only [calls, he, ih b h, List.filterMap_cons, Call.spec?]
    | count name =>
      simp only [calls, call, addAggregation, h, Option.isNone_some, Bool.false_eq_true, if_false, List.filterMap_cons, Call.spec?]
      rw [ih _ rfl]; simp
    | sum c lo hi name =>
      simp only [calls, call, addAggregation, h, Option.isNone_some, Bool.false_eq_true, if_false, List.filterMap_cons, Call.spec?]
      rw [ih _ rfl]; simp
    | mean c lo hi name =>
      simp only [calls, call, addAggregation, h, Option.isNone_some, Bool.false_eq_true, if_false, List.filterMap_cons, Call.spec?]
      rw [ih _ rfl]; simp

/-- **C51.** The state of a builder after any sequence of calls, including calls which raise: nothing happens before the first valid
`groupby`; that call decides the grouping, the bounds and the public keys; after it every aggregation counts, and every other
`groupby` is rejected. -/
theorem C51_calls (b0 : Builder) (columns : List String) (pc : String) (h0 : Builder.new columns pc = .ok b0) (cs : List Call) :
    ((∀ g, Call.groupby g ∈ cs → GroupBy.by? columns g = none) ∧ calls b0 cs = b0 ∧ build b0 = .error .notImplemented) ∨
    ∃ pre g post y, cs = pre ++ [.groupby g] ++ post ∧ (∀ g', Call.groupby g' ∈ pre → GroupBy.by? columns g' = none) ∧
      GroupBy.by? columns g = some y ∧
      calls b0 cs = ⟨columns, pc, some y, g.publicKeys, post.filterMap Call.spec?, some g.maxGroups, some g.maxPerGroup⟩ := by
  have hb0 : b0 = ⟨columns, pc, none, none, [], none, none⟩ := by
    unfold Builder.new at h0; split at h0
    · cases h0; rfl
    · cases h0
  by_cases hv : ∀ g, Call.groupby g ∈ cs → GroupBy.by? columns g = none
  · left
    subst hb0
    exact ⟨hv, calls_before _ rfl cs hv, rfl⟩
  · right
    have split : ∀ cs : List Call, ¬ (∀ g, Call.groupby g ∈ cs → GroupBy.by? columns g = none) →
        ∃ pre g post y, cs = pre ++ [.groupby g] ++ post ∧ (∀ g', Call.groupby g' ∈ pre → GroupBy.by? columns g' = none) ∧
          GroupBy.by? columns g = some y := by
      intro cs
      induction cs with
      | nil => intro h; exact absurd (by simp) h
      | cons c cs ih =>
        intro h
        by_cases hc : ∃ g y, c = .groupby g ∧ GroupBy.by? columns g = some y
        · obtain ⟨g, y, rfl, hy⟩ := hc
          exact ⟨[], g, cs, y, rfl, by simp, hy⟩
        · have hc' : ∀ g, c = .groupby g → GroupBy.by? columns g = none := by
            intro g hg
            cases hy : GroupBy.by? columns g with
            | none => rfl
            | some y => exact absurd ⟨g, y, hg, hy⟩ hc
          have : ¬ ∀ g, Call.groupby g ∈ cs → GroupBy.by? columns g = none := by
            intro h'
            apply h
            intro g hg
            rcases List.mem_cons.mp hg with hg | hg
            · exact hc' g hg.symm
            · exact h' g hg
          obtain ⟨pre, g, post, y, e, h1, h2⟩ := ih this
          refine ⟨c :: pre, g, post, y, by simp [e], ?_, h2⟩
          intro g' hg'
          rcases List.mem_cons.mp hg' with hg' | hg'
          · exact hc' g' hg'.symm
          · exact h1 g' hg'
    obtain ⟨pre, g, post, y, e, h1, h2⟩ := split cs hv
    refine ⟨pre, g, post, y, e, h1, h2, ?_⟩
    subst hb0
    rw [e, calls_append, calls_append, calls_before _ rfl pre h1]
    have hg := call_groupby_none ⟨columns, pc, none, none, [], none, none⟩ rfl g
    rw [h2] at hg
    simp only at hg
    rw [show calls ⟨columns, pc, none, none, [], none, none⟩ [Call.groupby g] = _ from by simp only [calls, hg]; rfl,
      calls_after _ y rfl]
    simp

theorem foldl_min_le (as : List ℚ) : ∀ a : ℚ, as.foldl min a ≤ a ∧ ∀ x ∈ as, as.foldl min a ≤ x := by
  induction as with
  | nil => intro a; simp
  | cons b as ih =>
    intro a
    obtain ⟨h1, h2⟩ := ih (min a b)
    rw [List.foldl_cons]
    refine ⟨h1.trans (min_le_left _ _), fun x hx => ?_⟩
    rcases List.mem_cons.mp hx with rfl | hx
    · exact h1.trans (min_le_right _ _)
    · exact h2 x hx

theorem le_foldl_max (as : List ℚ) : ∀ a : ℚ, a ≤ as.foldl max a ∧ ∀ x ∈ as, x ≤ as.foldl max a := by
  induction as with
  | nil => intro a; simp
  | cons b as ih =>
    intro a
    obtain ⟨h1, h2⟩ := ih (max a b)
    rw [List.foldl_cons]
    refine ⟨(le_max_left _ _).trans h1, fun x hx => ?_⟩
    rcases List.mem_cons.mp hx with rfl | hx
    · exact (le_max_right _ _).trans h1
    · exact h2 x hx

theorem allValuesEqual_iff (a : ℚ) (as : List ℚ) : allValuesEqual a as = true ↔ ∀ x ∈ as, x = a := by
  unfold allValuesEqual
  rw [beq_iff_eq]
  constructor
  · intro h x hx
    have h1 := foldl_min_le as a
    have h2 := le_foldl_max as a
    have e1 : as.foldl min a = a := le_antisymm h1.1 (h ▸ h2.1)
    have e2 : as.foldl max a = a := h ▸ e1
    exact le_antisymm (e2 ▸ h2.2 x hx) (e1 ▸ h1.2 x hx)
  · intro h
    have e1 : ∀ l : List ℚ, (∀ x ∈ l, x = a) → l.foldl min a = a := by
      intro l; induction l with
      | nil => intro _; rfl
      | cons b l ih => intro h; rw [List.foldl_cons, h b (by simp), min_self]; exact ih fun x hx => h x (by simp [hx])
    have e2 : ∀ l : List ℚ, (∀ x ∈ l, x = a) → l.foldl max a = a := by
      intro l; induction l with
      | nil => intro _; rfl
      | cons b l ih => intro h; rw [List.foldl_cons, h b (by simp), max_self]; exact ih fun x hx => h x (by simp [hx])
    rw [e1 as h, e2 as h]

theorem pairwise_eq_iff {X : Type} (f : Spec → Option X) (specs : List Spec) (x : X) (xs : List X) (h : specs.filterMap f = x :: xs) :
    (∀ y ∈ xs, y = x) ↔ ∀ s ∈ specs, ∀ t ∈ specs, ∀ a b, f s = some a → f t = some b → a = b := by
  have hm : ∀ y, y ∈ x :: xs ↔ ∃ s ∈ specs, f s = some y := by
    intro y; rw [← h]; simp [List.mem_filterMap]
  constructor
  · intro hx s hs t ht a b ha hb
    have all : ∀ y ∈ x :: xs, y = x := by simpa using hx
    rw [all a ((hm a).mpr ⟨s, hs, ha⟩), all b ((hm b).mpr ⟨t, ht, hb⟩)]
  · intro hp y hy
    obtain ⟨s, hs, ha⟩ := (hm y).mp (by simp [hy])
    obtain ⟨t, ht, hb⟩ := (hm x).mp (by simp)
    exact hp s hs t ht y x ha hb

theorem getInputColumn_iff (specs : List Spec) (r : Option String) :
    getInputColumn specs = .ok r ↔
      (∀ s ∈ specs, ∀ t ∈ specs, ∀ c d, s.input = some c → t.input = some d → c = d) ∧
      r = (specs.filterMap Spec.input).head? := by
  unfold getInputColumn
  dsimp only
  have key : ¬ (specs.filterMap Spec.input).dedup.length > 1 ↔
      ∀ s ∈ specs, ∀ t ∈ specs, ∀ c d, s.input = some c → t.input = some d → c = d := by
    rcases hl : specs.filterMap Spec.input with _ | ⟨x, xs⟩
    · simp only [List.dedup_nil, List.length_nil]
      refine ⟨fun _ s hs t ht c d hc hd => ?_, fun _ => by omega⟩
      have : c ∈ specs.filterMap Spec.input := List.mem_filterMap.mpr ⟨s, hs, hc⟩
      rw [hl] at this; cases this
    · rw [← pairwise_eq_iff Spec.input specs x xs hl]
      constructor
      · intro h y hy
        have hy' : y ∈ (x :: xs).dedup := List.mem_dedup.mpr (by simp [hy])
        have hx' : x ∈ (x :: xs).dedup := List.mem_dedup.mpr (by simp)
        rcases hd : (x :: xs).dedup with _ | ⟨z, _ | ⟨w, l⟩⟩
        · rw [hd] at hx'; cases hx'
        · rw [hd] at hx' hy'; simp at hx' hy'; rw [hx', hy']
        · rw [hd] at h; simp at h
      · intro h
        have hsub : (x :: xs).dedup ⊆ [x] := by
          intro y hy
          have := List.mem_dedup.mp hy
          rcases List.mem_cons.mp this with rfl | hy
          · simp
          · simp [h y hy]
        have := ((List.nodup_dedup (x :: xs)).subperm hsub).length_le
        simp at this ⊢; omega
  by_cases h : (specs.filterMap Spec.input).dedup.length > 1
  · rw [if_pos h]
    constructor
    · intro h'; cases h'
    · intro h'; exact absurd h (key.mpr h'.1)
  · rw [if_neg h]
    constructor
    · intro h'; cases h'; exact ⟨key.mp h, rfl⟩
    · intro h'; rw [h'.2]

theorem getValueCaps_iff (specs : List Spec) (r : Option ℚ × Option ℚ) :
    getValueCaps specs = .ok r ↔
      ((∃ s ∈ specs, s.metric ≠ .count ∧ s.metric ≠ .privacyIdCount) ∧
        (∃ s ∈ specs, s.minValue.isSome) ∧ (∃ s ∈ specs, s.maxValue.isSome) ∧
        (∀ s ∈ specs, ∀ t ∈ specs, ∀ x y, s.minValue = some x → t.minValue = some y → x = y) ∧
        (∀ s ∈ specs, ∀ t ∈ specs, ∀ x y, s.maxValue = some x → t.maxValue = some y → x = y) ∧
        r = ((specs.filterMap Spec.minValue).head?, (specs.filterMap Spec.maxValue).head?)) ∨
      ((¬ ∃ s ∈ specs, s.metric ≠ .count ∧ s.metric ≠ .privacyIdCount) ∧ r = (none, none)) := by
  have hneed : ((specs.map Spec.metric).filter fun m => !(m == .count || m == .privacyIdCount)) = [] ↔
      ¬ ∃ s ∈ specs, s.metric ≠ .count ∧ s.metric ≠ .privacyIdCount := by
    rw [List.filter_eq_nil_iff]
    simp only [List.mem_map, forall_exists_index, and_imp, forall_apply_eq_imp_iff₂, not_exists, not_and]
    refine forall₂_congr fun s hs => ?_
    by_cases h1 : s.metric = .count <;> by_cases h2 : s.metric = .privacyIdCount <;> simp [h1, h2]
  have hex : ∀ f : Spec → Option ℚ, (∃ s ∈ specs, (f s).isSome) ↔ specs.filterMap f ≠ [] := by
    intro f
    rw [Ne, List.filterMap_eq_nil_iff]
    constructor
    · rintro ⟨s, hs, h⟩ h'; rw [h' s hs] at h; cases h
    · intro h
      by_contra hc
      apply h
      intro s hs
      cases hf : f s with
      | none => rfl
      | some x => exact absurd ⟨s, hs, by rw [hf]; rfl⟩ hc
  unfold getValueCaps
  dsimp only
  by_cases hn : ((specs.map Spec.metric).filter fun m => !(m == .count || m == .privacyIdCount)) = []
  · rw [if_pos hn]
    have := hneed.mp hn
    constructor
    · intro h; cases h; exact .inr ⟨this, rfl⟩
    · rintro (⟨h, -⟩ | ⟨-, h⟩)
      · exact absurd h this
      · rw [h]
  · rw [if_neg hn]
    have hyes : ∃ s ∈ specs, s.metric ≠ .count ∧ s.metric ≠ .privacyIdCount := by
      by_contra hc; exact hn (hneed.mpr hc)
    rcases hlo : specs.filterMap Spec.minValue with _ | ⟨lo, los⟩
    · dsimp only
      constructor
      · intro h; cases h
      · rintro (⟨-, h, -⟩ | ⟨h, -⟩)
        · exact absurd hlo ((hex _).mp h)
        · exact absurd hyes h
    · rcases hhi : specs.filterMap Spec.maxValue with _ | ⟨hi, his⟩
      · dsimp only
        constructor
        · intro h; cases h
        · rintro (⟨-, -, h, -⟩ | ⟨h, -⟩)
          · exact absurd hhi ((hex _).mp h)
          · exact absurd hyes h
      · dsimp only
        have e1 := pairwise_eq_iff Spec.minValue specs lo los hlo
        have e2 := pairwise_eq_iff Spec.maxValue specs hi his hhi
        rw [← allValuesEqual_iff] at e1 e2
        constructor
        · intro h
          split at h
          · cases h
          · rename_i hc
            cases h
            simp only [Bool.or_eq_true, Bool.not_eq_true', not_or, Bool.not_eq_false] at hc
            refine .inl ⟨hyes, (hex _).mpr (by simp [hlo]), (hex _).mpr (by simp [hhi]), e1.mp hc.1, e2.mp hc.2, by simp⟩
        · rintro (⟨-, -, -, h1, h2, h3⟩ | ⟨h, -⟩)
          · rw [e1.mpr h1, e2.mpr h2, h3]; simp
          · exact absurd hyes h

/-- **C51.** `build_query` accepts exactly the builders with a grouping and consistent aggregations: at least one, none repeated, one
input column, and, unless only counts are computed, value caps given at least once and nowhere contradicted. -/
theorem C51_build_iff (b : Builder) :
    (∃ q, build b = .ok q) ↔ (∃ y, b.by_ = some y) ∧ Consistent b.specs := by
  constructor
  · rintro ⟨q, hq⟩
    unfold build at hq
    rcases hb : b.by_ with _ | y
    · rw [hb] at hq; cases hq
    · rw [hb] at hq
      dsimp only at hq
      split at hq
      · cases hq
      · split at hq
        · cases hq
        · rename_i hne hd
          rcases hi : getInputColumn b.specs with e | input
          · rw [hi] at hq; cases hq
          · rw [hi] at hq
            dsimp only at hq
            rcases hc : getValueCaps b.specs with e | caps
            · rw [hc] at hq; cases hq
            · refine ⟨⟨y, rfl⟩, hne, ?_, ((getInputColumn_iff _ _).mp hi).1, ?_⟩
              · rw [not_not] at hd
                have : (b.specs.map Spec.metric).dedup = b.specs.map Spec.metric :=
                  (List.dedup_sublist _).eq_of_length hd
                exact List.dedup_eq_self.mp this
              · intro hyes
                rcases (getValueCaps_iff _ _).mp hc with ⟨-, h1, h2, h3, h4, -⟩ | ⟨h, -⟩
                · exact ⟨h1, h2, h3, h4⟩
                · exact absurd hyes h
  · rintro ⟨⟨y, hy⟩, hc⟩
    unfold build
    rw [hy]
    dsimp only
    rw [if_neg hc.some_aggregation, if_neg (by rw [not_not, List.dedup_eq_self.mpr hc.each_once])]
    rw [(getInputColumn_iff _ _).mpr ⟨hc.one_column, rfl⟩]
    dsimp only
    by_cases hyes : ∃ s ∈ b.specs, s.metric ≠ .count ∧ s.metric ≠ .privacyIdCount
    · obtain ⟨h1, h2, h3, h4⟩ := hc.caps hyes
      rw [(getValueCaps_iff _ _).mpr (.inl ⟨hyes, h1, h2, h3, h4, rfl⟩)]
      exact ⟨_, rfl⟩
    · rw [(getValueCaps_iff _ _).mpr (.inr ⟨hyes, rfl⟩)]
      exact ⟨_, rfl⟩

/-- **C51.** The query has the grouping and bounds of the builder, one metric per aggregation in the order of the calls, the input
column and the caps which were given anywhere. -/
theorem C51_query (b : Builder) (q : Query) (h : build b = .ok q) :
    b.by_ = some q.by_ ∧ q.metrics = b.specs.map (fun s => (s.metric, s.output)) ∧
      q.maxPartitions = b.maxPartitions ∧ q.maxPerPartition = b.maxPerPartition ∧ q.publicKeys = b.publicKeys ∧
      (∀ s ∈ b.specs, ∀ c, s.input = some c → q.input = some c) ∧
      ((∀ s ∈ b.specs, s.input = none) → q.input = none) ∧
      ((∃ s ∈ b.specs, s.metric ≠ .count ∧ s.metric ≠ .privacyIdCount) →
        (∀ s ∈ b.specs, ∀ x, s.minValue = some x → q.minValue = some x) ∧
        (∀ s ∈ b.specs, ∀ x, s.maxValue = some x → q.maxValue = some x) ∧ q.minValue.isSome ∧ q.maxValue.isSome) ∧
      ((∀ s ∈ b.specs, s.metric = .count ∨ s.metric = .privacyIdCount) → q.minValue = none ∧ q.maxValue = none) := by
  unfold build at h
  rcases hb : b.by_ with _ | y
  · rw [hb] at h; cases h
  · rw [hb] at h
    dsimp only at h
    split at h
    · cases h
    · split at h
      · cases h
      · rcases hi : getInputColumn b.specs with e | input
        · rw [hi] at h; cases h
        · rw [hi] at h
          dsimp only at h
          rcases hc : getValueCaps b.specs with e | caps
          · rw [hc] at h; cases h
          · rw [hc] at h
            cases h
            obtain ⟨hone, rfl⟩ := (getInputColumn_iff _ _).mp hi
            have head : ∀ {X : Type} (f : Spec → Option X) (s : Spec) (x : X), s ∈ b.specs → f s = some x →
                (∀ s ∈ b.specs, ∀ t ∈ b.specs, ∀ a c, f s = some a → f t = some c → a = c) →
                (b.specs.filterMap f).head? = some x := by
              intro X f s x hs hx hp
              rcases hl : b.specs.filterMap f with _ | ⟨z, l⟩
              · have : x ∈ b.specs.filterMap f := List.mem_filterMap.mpr ⟨s, hs, hx⟩
                rw [hl] at this; cases this
              · obtain ⟨t, ht, hz⟩ := List.mem_filterMap.mp (show z ∈ b.specs.filterMap f by rw [hl]; simp)
                rw [hp t ht s hs z x hz hx]; rfl
            refine ⟨rfl, rfl, rfl, rfl, rfl, fun s hs c hsc => head _ s c hs hsc hone, fun hno => ?_, ?_, ?_⟩
            · show (b.specs.filterMap Spec.input).head? = none
              rw [List.filterMap_eq_nil_iff.mpr hno]; rfl
            · intro hyes
              rcases (getValueCaps_iff _ _).mp hc with ⟨-, ⟨s1, hs1, h1⟩, ⟨s2, hs2, h2⟩, h3, h4, rfl⟩ | ⟨h, -⟩
              · refine ⟨fun s hs x hx => head _ s x hs hx h3, fun s hs x hx => head _ s x hs hx h4, ?_, ?_⟩
                · obtain ⟨x, hx⟩ := Option.isSome_iff_exists.mp h1
                  rw [show (b.specs.filterMap Spec.minValue).head? = some x from head _ s1 x hs1 hx h3]; rfl
                · obtain ⟨x, hx⟩ := Option.isSome_iff_exists.mp h2
                  rw [show (b.specs.filterMap Spec.maxValue).head? = some x from head _ s2 x hs2 hx h4]; rfl
              · exact absurd hyes h
            · intro hno
              rcases (getValueCaps_iff _ _).mp hc with ⟨⟨s, hs, h1, h2⟩, -⟩ | ⟨-, rfl⟩
              · rcases hno s hs with h | h
                · exact absurd h h1
                · exact absurd h h2
              · exact ⟨rfl, rfl⟩

/-- The query of the class documentation: sum gives the caps, mean reuses them. -/
example : (calls ⟨["user_id", "day", "spent_money"], "user_id", none, none, [], none, none⟩
      [.count none, .groupby ⟨.str "day", 3, 1, none, none⟩, .count none, .sum "spent_money" (some 0) (some 100) none,
        .groupby ⟨.str "user_id", 9, 9, none, none⟩, .mean "spent_money" none none (some "avg")]).specs
    = [⟨.count, none, none, none, none⟩, ⟨.sum, some "spent_money", none, some 0, some 100⟩,
       ⟨.mean, some "spent_money", some "avg", none, none⟩] ∧
    Consistent [⟨.count, none, none, none, none⟩, ⟨.sum, some "spent_money", none, some 0, some 100⟩,
       ⟨.mean, some "spent_money", some "avg", none, none⟩] := by
  refine ⟨by decide +kernel, ⟨by simp, by decide, ?_, fun _ => ⟨?_, ?_, ?_, ?_⟩⟩⟩ <;> simp

end PDP.DataFrame
