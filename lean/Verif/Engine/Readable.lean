import Verif.Engine.Params
import Mathlib.Data.List.Infix
import Mathlib.Data.List.SplitOn
import Mathlib.Tactic.SplitIfs

/-!
# The parameters in an explain-computation report (C87)

`parameters_to_readable_string` (`aggregate_params.py:697-738`), which every report begins with (`report_generator.py:54-64, 77-82`) and
which is `str()` of `AggregateParams` (`aggregate_params.py:394-395`).  A Python string is a list of characters here.
-/

namespace PDP.Engine.Readable

open PDP.Engine (NoiseKind NormKind Strategy)

/-! ### Model -/

/-- A Python string. -/
abbrev Text := List Char

/-- A literal. -/
def txt (s : String) : Text := s.toList

/-- `Metric` (`aggregate_params.py:28-54, 61-72`), with the parameter of a percentile in the numbers `N` of Python. -/
inductive Metric (N : Type) where
  | count | privacyIdCount | sum | mean | variance | vectorSum
  | percentile (p : N)

/-- `Metric.__str__` (`aggregate_params.py:45-48`); `str` is Python's `str` of a number. -/
def Metric.text {N : Type} (str : N → Text) : Metric N → Text
  | .count => txt "COUNT"
  | .privacyIdCount => txt "PRIVACY_ID_COUNT"
  | .sum => txt "SUM"
  | .mean => txt "MEAN"
  | .variance => txt "VARIANCE"
  | .vectorSum => txt "VECTOR_SUM"
  | .percentile p => txt "PERCENTILE(" ++ str p ++ txt ")"

/-- The fields of `AggregateParams` (`aggregate_params.py:243-262`); numbers are Python numbers `N` (an `int` and a `float` are different
objects, also if they are equal).  `customNames` are the `metrics_names()` of the custom combiners. -/
structure AggregateParams (N : Type) where
  metrics : Option (List (Metric N))
  noiseKind : NoiseKind
  maxPartitions : Option N
  maxPerPartition : Option N
  maxContributions : Option N
  budgetWeight : N
  minValue : Option N
  maxValue : Option N
  minSum : Option N
  maxSum : Option N
  customNames : List (List Text)
  vectorNormKind : Option NormKind
  vectorMaxNorm : Option N
  vectorSize : Option N
  boundsEnforced : Bool
  publicFiltered : Bool
  strategy : Strategy
  preThreshold : Option N
  postThresholding : Bool
  performCross : Bool

/-- `SelectPartitionsParams` (`aggregate_params.py:399-418`). -/
structure SelectParams (N : Type) where
  maxPartitions : N
  budgetWeight : N
  strategy : Strategy
  preThreshold : Option N

/-- `AddDPNoiseParams` (`aggregate_params.py:646-666`). -/
structure NoiseParams (N : Type) where
  noiseKind : NoiseKind
  l0 : N
  linf : N
  budgetWeight : N

/-- `'…'`: `repr` of a string without quotes in it. -/
def quoted (t : Text) : Text := txt "'" ++ t ++ txt "'"

/-- `str` of a list whose elements have the given `repr`. -/
def listText (l : List Text) : Text := txt "[" ++ List.intercalate (txt ", ") l ++ txt "]"

/-- `metrics_str` (`aggregate_params.py:264-270`). -/
def AggregateParams.metricsStr {N : Type} (str : N → Text) (p : AggregateParams N) : Text :=
  if p.customNames ≠ [] then
    txt "custom combiners=" ++ listText (p.customNames.map fun names => listText (names.map quoted))
  else
    match p.metrics with
    | some (m :: ms) => txt "metrics=" ++ listText ((m :: ms).map fun m => quoted (m.text str))
    | _ => txt "metrics=[]"

/-- `NoiseKind.value` (`aggregate_params.py:75-77`). -/
def noiseValue : NoiseKind → Text
  | .laplace => txt "laplace"
  | .gaussian => txt "gaussian"

/-- An f-string of a `NormKind` (`aggregate_params.py:129-133`). -/
def normText : NormKind → Text
  | .linf => txt "NormKind.Linf"
  | .l0 => txt "NormKind.L0"
  | .l1 => txt "NormKind.L1"
  | .l2 => txt "NormKind.L2"

/-- The lines `tag ++ value` of those entries that have a value: `_add_if_obj_has_property` (`aggregate_params.py:697-704`) for the
properties in order. -/
def optionalLines (l : List (Text × Option Text)) : List Text :=
  l.filterMap fun x => x.2.map fun v => x.1 ++ v

/-- The last line (`aggregate_params.py:733-736`). -/
def selectionEntry (pub : Option Bool) : Text × Option Text :=
  (txt " Partition selection: ", pub.map fun b => (if b then txt "public" else txt "private") ++ txt " partitions")

/-- The optional lines of `AggregateParams` (`aggregate_params.py:719-736`). -/
def AggregateParams.entries {N : Type} (str : N → Text) (p : AggregateParams N) (pub : Option Bool) : List (Text × Option Text) :=
  [(txt "  max_partitions_contributed=", p.maxPartitions.map str),
   (txt "  max_contributions_per_partition=", p.maxPerPartition.map str),
   (txt "  max_contributions=", p.maxContributions.map str),
   (txt "  min_value=", p.minValue.map str),
   (txt "  max_value=", p.maxValue.map str),
   (txt "  min_sum_per_partition=", p.minSum.map str),
   (txt "  max_sum_per_partition=", p.maxSum.map str),
   (txt "  contribution_bounds_already_enforced=True", if p.boundsEnforced then some [] else none),
   (txt "  vector_max_norm=", p.vectorMaxNorm.map str),
   (txt "  vector_size=", p.vectorSize.map str),
   (txt "  vector_norm_kind=", p.vectorNormKind.map normText),
   selectionEntry pub]

/-- The lines of the text (`aggregate_params.py:710-736`). -/
def AggregateParams.lines {N : Type} (str : N → Text) (p : AggregateParams N) (pub : Option Bool) : List Text :=
  [txt "AggregateParams:", txt " " ++ p.metricsStr str, txt " noise_kind=" ++ noiseValue p.noiseKind,
    txt " budget_weight=" ++ str p.budgetWeight, txt " Contribution bounding:"] ++ optionalLines (p.entries str pub)

/-- `parameters_to_readable_string` of `AggregateParams` (`aggregate_params.py:707-738`). -/
def AggregateParams.readable {N : Type} (str : N → Text) (p : AggregateParams N) (pub : Option Bool) : Text :=
  List.intercalate (txt "\n") (p.lines str pub)

/-- The lines for `SelectPartitionsParams`, which has no metrics and no noise kind. -/
def SelectParams.lines {N : Type} (str : N → Text) (p : SelectParams N) (pub : Option Bool) : List Text :=
  [txt "SelectPartitionsParams:", txt " budget_weight=" ++ str p.budgetWeight, txt " Contribution bounding:"]
    ++ optionalLines [(txt "  max_partitions_contributed=", some (str p.maxPartitions)), selectionEntry pub]

/-- `parameters_to_readable_string` of `SelectPartitionsParams` (`aggregate_params.py:707-738`). -/
def SelectParams.readable {N : Type} (str : N → Text) (p : SelectParams N) (pub : Option Bool) : Text :=
  List.intercalate (txt "\n") (p.lines str pub)

/-- The lines for `AddDPNoiseParams`, which has no metrics and none of the bounds. -/
def NoiseParams.lines {N : Type} (str : N → Text) (p : NoiseParams N) (pub : Option Bool) : List Text :=
  [txt "AddDPNoiseParams:", txt " noise_kind=" ++ noiseValue p.noiseKind, txt " budget_weight=" ++ str p.budgetWeight,
    txt " Contribution bounding:"] ++ optionalLines [selectionEntry pub]

/-- `parameters_to_readable_string` of `AddDPNoiseParams` (`aggregate_params.py:707-738`). -/
def NoiseParams.readable {N : Type} (str : N → Text) (p : NoiseParams N) (pub : Option Bool) : Text :=
  List.intercalate (txt "\n") (p.lines str pub)

/-! ### Specification -/

/-- `str` of Python numbers: different numbers have different texts, in which there is neither a comma nor the end of a line. -/
structure Numerals {N : Type} (str : N → Text) : Prop where
  injective : Function.Injective str
  noComma : ∀ x, ',' ∉ str x
  noNewline : ∀ x, '\n' ∉ str x

/-- The parameters agree in all that a report shows: `None` and the empty list of metrics are not told apart. -/
structure SameShown {N : Type} (p p' : AggregateParams N) : Prop where
  metrics : p.metrics.getD [] = p'.metrics.getD []
  noiseKind : p.noiseKind = p'.noiseKind
  budgetWeight : p.budgetWeight = p'.budgetWeight
  maxPartitions : p.maxPartitions = p'.maxPartitions
  maxPerPartition : p.maxPerPartition = p'.maxPerPartition
  maxContributions : p.maxContributions = p'.maxContributions
  minValue : p.minValue = p'.minValue
  maxValue : p.maxValue = p'.maxValue
  minSum : p.minSum = p'.minSum
  maxSum : p.maxSum = p'.maxSum
  boundsEnforced : p.boundsEnforced = p'.boundsEnforced
  vectorMaxNorm : p.vectorMaxNorm = p'.vectorMaxNorm
  vectorSize : p.vectorSize = p'.vectorSize
  vectorNormKind : p.vectorNormKind = p'.vectorNormKind

/-- `l` is one of the lines of the text `t`. -/
def IsLine (l t : Text) : Prop := l ∈ t.splitOn '\n'

/-- The names of the metrics in the documentation (`aggregate_params.py:61-72`). -/
def metricName {N : Type} (str : N → Text) : Metric N → Text
  | .count => "COUNT".toList
  | .privacyIdCount => "PRIVACY_ID_COUNT".toList
  | .sum => "SUM".toList
  | .mean => "MEAN".toList
  | .variance => "VARIANCE".toList
  | .vectorSum => "VECTOR_SUM".toList
  | .percentile p => "PERCENTILE(".toList ++ str p ++ ")".toList

/-- Names in quotes with commas between them, in brackets. -/
def namesList (names : List Text) : Text :=
  "[".toList ++ List.intercalate ", ".toList (names.map fun n => "'".toList ++ n ++ "'".toList) ++ "]".toList

/-! ### Lemmas -/

theorem append_sep_inj {c : Char} : ∀ {a a' : Text} {X X' : Text}, c ∉ a → c ∉ a' → a ++ c :: X = a' ++ c :: X' → a = a' ∧ X = X' := by
  intro a
  induction a with
  | nil =>
    intro a' X X' _ h' h
    cases a' with
    | nil => simpa using h
    | cons y a' =>
      simp only [List.nil_append, List.cons_append, List.cons.injEq] at h
      exact absurd h.1 (by rintro rfl; simp at h')
  | cons x a ih =>
    intro a' X X' ha ha' h
    cases a' with
    | nil =>
      simp only [List.nil_append, List.cons_append, List.cons.injEq] at h
      exact absurd h.1 (by rintro rfl; simp at ha)
    | cons y a' =>
      simp only [List.cons_append, List.cons.injEq] at h
      obtain ⟨rfl, h⟩ := h
      obtain ⟨rfl, rfl⟩ := ih (fun hm => ha (List.mem_cons_of_mem _ hm)) (fun hm => ha' (List.mem_cons_of_mem _ hm)) h
      exact ⟨rfl, rfl⟩

theorem intercalate_cons₂ (s a b : Text) (l : List Text) :
    List.intercalate s (a :: b :: l) = a ++ (s ++ List.intercalate s (b :: l)) := by
  simp [List.intercalate]

theorem intercalate_singleton (s a : Text) : List.intercalate s [a] = a := by
  simp [List.intercalate]

/-- Joined texts determine the list, if the first character of the separator occurs in none of the parts and no part is empty. -/
theorem intercalate_inj {c : Char} {s : Text} : ∀ {l l' : List Text}, (∀ a ∈ l, c ∉ a ∧ a ≠ []) → (∀ a ∈ l', c ∉ a ∧ a ≠ []) →
    List.intercalate (c :: s) l = List.intercalate (c :: s) l' → l = l' := by
  intro l
  induction l with
  | nil =>
    intro l' _ h' h
    cases l' with
    | nil => rfl
    | cons a l' =>
      exfalso
      have ha := (h' a (by simp)).2
      cases l' with
      | nil => rw [intercalate_singleton] at h; exact ha h.symm
      | cons b l' =>
        rw [intercalate_cons₂] at h
        have := congrArg List.length h
        simp [List.intercalate] at this
  | cons a l ih =>
    intro l' hl hl' h
    cases l' with
    | nil =>
      exfalso
      have ha := (hl a (by simp)).2
      cases l with
      | nil => rw [intercalate_singleton] at h; exact ha h
      | cons b l =>
        rw [intercalate_cons₂] at h
        have := congrArg List.length h
        simp [List.intercalate] at this
    | cons a' l' =>
      have ha := (hl a (by simp)).1
      have ha' := (hl' a' (by simp)).1
      cases l with
      | nil =>
        cases l' with
        | nil => rw [intercalate_singleton, intercalate_singleton] at h; rw [h]
        | cons b' l' =>
          rw [intercalate_singleton, intercalate_cons₂] at h
          exact absurd (by rw [h]; simp) ha
      | cons b l =>
        cases l' with
        | nil =>
          rw [intercalate_singleton, intercalate_cons₂] at h
          exact absurd (by rw [← h]; simp) ha'
        | cons b' l' =>
          rw [intercalate_cons₂, intercalate_cons₂, List.cons_append, List.cons_append] at h
          obtain ⟨h1, h2⟩ := append_sep_inj ha ha' h
          have := ih (fun x hx => hl x (List.mem_cons_of_mem _ hx)) (fun x hx => hl' x (List.mem_cons_of_mem _ hx))
            (List.append_cancel_left h2)
          rw [h1, this]

/-- Entries with the same tags, none of which begins another one, are determined by the lines. -/
theorem optionalLines_inj : ∀ {l l' : List (Text × Option Text)}, l.map Prod.fst = l'.map Prod.fst →
    (l.map Prod.fst).Pairwise (fun t t' => ¬ t <+: t' ∧ ¬ t' <+: t) → optionalLines l = optionalLines l' → l = l' := by
  have clash : ∀ {t v : Text} {l : List (Text × Option Text)} {r : List Text}, (∀ t' ∈ l.map Prod.fst, ¬ t <+: t' ∧ ¬ t' <+: t) →
      (t ++ v) :: r ≠ optionalLines l := by
    intro t v l r hl h
    have hm : t ++ v ∈ optionalLines l := by rw [← h]; simp
    obtain ⟨x, hx, hv⟩ := List.mem_filterMap.mp hm
    rcases hx2 : x.2 with _ | w
    · rw [hx2] at hv; simp at hv
    · rw [hx2] at hv
      simp only [Option.map_some, Option.some.injEq] at hv
      have h1 := hl x.1 (List.mem_map.mpr ⟨x, hx, rfl⟩)
      have p1 : t <+: t ++ v := List.prefix_append _ _
      have p2 : x.1 <+: t ++ v := by rw [← hv]; exact List.prefix_append _ _
      rcases List.prefix_or_prefix_of_prefix p1 p2 with h | h
      · exact h1.1 h
      · exact h1.2 h
  intro l
  induction l with
  | nil =>
    intro l' h _ _
    cases l' with
    | nil => rfl
    | cons x l' => simp at h
  | cons x l ih =>
    intro l' h hp hl
    cases l' with
    | nil => simp at h
    | cons y l' =>
      obtain ⟨t, o⟩ := x
      obtain ⟨t', o'⟩ := y
      simp only [List.map_cons, List.cons.injEq] at h
      obtain ⟨rfl, h⟩ := h
      rw [List.map_cons, List.pairwise_cons] at hp
      cases o with
      | none =>
        cases o' with
        | none => rw [ih h hp.2 (by simpa [optionalLines] using hl)]
        | some v =>
          exfalso
          refine clash (t := t) (v := v) (l := l) (r := optionalLines l') hp.1 ?_
          simpa [optionalLines] using hl.symm
      | some v =>
        cases o' with
        | none =>
          exfalso
          refine clash (t := t) (v := v) (l := l') (r := optionalLines l) (by rw [← h]; exact hp.1) ?_
          simpa [optionalLines] using hl
        | some v' =>
          simp only [optionalLines, List.filterMap_cons, Option.map_some, List.cons.injEq] at hl
          rw [List.append_cancel_left hl.1, ih h hp.2 hl.2]

theorem Metric.text_inj {N : Type} {str : N → Text} (hs : Function.Injective str) : Function.Injective (Metric.text str) := by
  intro a b h
  cases a <;> cases b <;> first
    | rfl
    | (exfalso; revert h; simp [Metric.text, txt]; done)
    | skip
  rename_i x y
  simp only [Metric.text, List.append_assoc] at h
  rw [hs (List.append_cancel_right (List.append_cancel_left h))]

theorem Metric.text_no_comma {N : Type} {str : N → Text} (hs : Numerals str) (m : Metric N) : ',' ∉ m.text str := by
  cases m with
  | percentile p =>
    have := hs.noComma p
    simp only [Metric.text, List.mem_append, not_or]
    exact ⟨⟨by decide +kernel, this⟩, by decide +kernel⟩
  | _ => simp only [Metric.text]; decide +kernel

theorem Metric.text_no_newline {N : Type} {str : N → Text} (hs : Numerals str) (m : Metric N) : '\n' ∉ m.text str := by
  cases m with
  | percentile p =>
    have := hs.noNewline p
    simp only [Metric.text, List.mem_append, not_or]
    exact ⟨⟨by decide +kernel, this⟩, by decide +kernel⟩
  | _ => simp only [Metric.text]; decide +kernel

theorem quoted_inj : Function.Injective quoted := by
  intro a b h
  simp only [quoted, List.append_assoc] at h
  exact List.append_cancel_right (List.append_cancel_left h)

theorem not_mem_intercalate {c : Char} {s : Text} (hs : c ∉ s) : ∀ {l : List Text}, (∀ a ∈ l, c ∉ a) → c ∉ List.intercalate s l := by
  intro l
  induction l with
  | nil => intro _; simp [List.intercalate]
  | cons a l ih =>
    intro h
    cases l with
    | nil => rw [intercalate_singleton]; exact h a (by simp)
    | cons b l =>
      rw [intercalate_cons₂]
      simp only [List.mem_append, not_or]
      exact ⟨h a (by simp), hs, ih fun x hx => h x (List.mem_cons_of_mem _ hx)⟩

/-- Without custom combiners, the text of the metrics is the text of the list. -/
theorem metricsStr_eq {N : Type} (str : N → Text) {p : AggregateParams N} (hc : p.customNames = []) :
    p.metricsStr str = txt "metrics=" ++ listText ((p.metrics.getD []).map fun m => quoted (m.text str)) := by
  unfold AggregateParams.metricsStr
  rw [if_neg (by simp [hc])]
  rcases p.metrics with _ | _ | ⟨m, ms⟩
  · simp only [Option.getD_none, List.map_nil]; decide +kernel
  · simp only [Option.getD_some, List.map_nil]; decide +kernel
  · rfl

theorem metricsStr_inj {N : Type} {str : N → Text} (hs : Numerals str) {p p' : AggregateParams N} (hc : p.customNames = [])
    (hc' : p'.customNames = []) (h : p.metricsStr str = p'.metricsStr str) : p.metrics.getD [] = p'.metrics.getD [] := by
  rw [metricsStr_eq str hc, metricsStr_eq str hc'] at h
  have h := List.append_cancel_left h
  simp only [listText, List.append_assoc] at h
  have h := List.append_cancel_right (List.append_cancel_left h)
  have ok : ∀ l : List (Metric N), ∀ a ∈ l.map (fun m => quoted (m.text str)), ',' ∉ a ∧ a ≠ [] := by
    intro l a ha
    obtain ⟨m, -, rfl⟩ := List.mem_map.mp ha
    refine ⟨?_, by simp [quoted, txt]⟩
    simp only [quoted, List.mem_append, not_or]
    exact ⟨⟨by decide +kernel, m.text_no_comma hs⟩, by decide +kernel⟩
  have hsep : txt ", " = ',' :: [' '] := by decide +kernel
  rw [hsep] at h
  exact List.map_injective_iff.mpr (fun a b hab => Metric.text_inj hs.injective (quoted_inj hab)) (intercalate_inj (ok _) (ok _) h)

theorem metricsStr_no_newline {N : Type} {str : N → Text} (hs : Numerals str) {p : AggregateParams N} (hc : p.customNames = []) :
    '\n' ∉ p.metricsStr str := by
  rw [metricsStr_eq str hc]
  simp only [listText, List.mem_append, not_or]
  refine ⟨by decide +kernel, ⟨by decide +kernel, not_mem_intercalate (by decide +kernel) ?_⟩, by decide +kernel⟩
  intro a ha
  obtain ⟨m, -, rfl⟩ := List.mem_map.mp ha
  simp only [quoted, List.mem_append, not_or]
  exact ⟨⟨by decide +kernel, m.text_no_newline hs⟩, by decide +kernel⟩

/-- No end of a line in the tag or in the value, and a tag that is not empty. -/
def OneLine (x : Text × Option Text) : Prop := '\n' ∉ x.1 ∧ x.1 ≠ [] ∧ ∀ v, x.2 = some v → '\n' ∉ v

theorem optionalLines_ok {l : List (Text × Option Text)} (h : ∀ x ∈ l, OneLine x) : ∀ a ∈ optionalLines l, '\n' ∉ a ∧ a ≠ [] := by
  intro a ha
  obtain ⟨x, hx, hv⟩ := List.mem_filterMap.mp ha
  obtain ⟨v, hv', rfl⟩ := Option.map_eq_some_iff.mp hv
  obtain ⟨h1, h2, h3⟩ := h x hx
  exact ⟨by simp only [List.mem_append, not_or]; exact ⟨h1, h3 v hv'⟩, by simp [h2]⟩

theorem selection_ok (pub : Option Bool) : OneLine (selectionEntry pub) := by
  refine ⟨by dsimp only [selectionEntry]; decide +kernel, by dsimp only [selectionEntry]; decide +kernel, ?_⟩
  intro v hv
  rcases pub with _ | _ | _
  · simp [selectionEntry] at hv
  all_goals
    simp only [selectionEntry, Option.map_some, Option.some.injEq] at hv
    rw [← hv]; decide +kernel

theorem selection_inj {pub pub' : Option Bool} (h : (selectionEntry pub).2 = (selectionEntry pub').2) : pub = pub' := by
  revert h; revert pub pub'; unfold selectionEntry; decide +kernel

theorem number_ok {N : Type} {str : N → Text} (hs : Numerals str) {t : Text} (h1 : '\n' ∉ t) (h2 : t ≠ []) (o : Option N) :
    OneLine (t, o.map str) := by
  refine ⟨h1, h2, fun v hv => ?_⟩
  obtain ⟨x, -, rfl⟩ := Option.map_eq_some_iff.mp hv
  exact hs.noNewline x

theorem entries_ok {N : Type} {str : N → Text} (hs : Numerals str) (p : AggregateParams N) (pub : Option Bool) :
    ∀ x ∈ p.entries str pub, OneLine x := by
  intro x hx
  simp only [AggregateParams.entries, List.mem_cons, List.not_mem_nil, or_false] at hx
  rcases hx with rfl | rfl | rfl | rfl | rfl | rfl | rfl | rfl | rfl | rfl | rfl | rfl
  case inr.inr.inr.inr.inr.inr.inr.inl =>
    refine ⟨by dsimp only; decide +kernel, by dsimp only; decide +kernel, fun v hv => ?_⟩
    cases hb : p.boundsEnforced <;> simp [hb] at hv
    simp [hv]
  case inr.inr.inr.inr.inr.inr.inr.inr.inr.inr.inl =>
    refine ⟨by dsimp only; decide +kernel, by dsimp only; decide +kernel, fun v hv => ?_⟩
    obtain ⟨k, -, rfl⟩ := Option.map_eq_some_iff.mp hv
    cases k <;> decide +kernel
  case inr.inr.inr.inr.inr.inr.inr.inr.inr.inr.inr => exact selection_ok pub
  all_goals exact number_ok hs (by decide +kernel) (by decide +kernel) _

theorem tags_apart : ([txt "  max_partitions_contributed=", txt "  max_contributions_per_partition=", txt "  max_contributions=",
    txt "  min_value=", txt "  max_value=", txt "  min_sum_per_partition=", txt "  max_sum_per_partition=",
    txt "  contribution_bounds_already_enforced=True", txt "  vector_max_norm=", txt "  vector_size=", txt "  vector_norm_kind=",
    txt " Partition selection: "] : List Text).Pairwise (fun t t' => ¬ t <+: t' ∧ ¬ t' <+: t) := by
  decide +kernel

theorem noiseValue_inj : Function.Injective noiseValue := by
  intro a b; cases a <;> cases b <;> decide +kernel

theorem normText_inj : Function.Injective normText := by
  intro a b; cases a <;> cases b <;> decide +kernel

theorem noiseValue_ok (k : NoiseKind) : '\n' ∉ noiseValue k := by cases k <;> decide +kernel

theorem line_ok {t v : Text} (h1 : '\n' ∉ t) (h2 : t ≠ []) (h3 : '\n' ∉ v) : '\n' ∉ t ++ v ∧ t ++ v ≠ [] :=
  ⟨by simp only [List.mem_append, not_or]; exact ⟨h1, h3⟩, by simp [h2]⟩

theorem aggregate_lines_ok {N : Type} {str : N → Text} (hs : Numerals str) {p : AggregateParams N} (hc : p.customNames = [])
    (pub : Option Bool) : ∀ a ∈ p.lines str pub, '\n' ∉ a ∧ a ≠ [] := by
  intro a ha
  rcases List.mem_append.mp ha with h | h
  · simp only [List.mem_cons, List.not_mem_nil, or_false] at h
    rcases h with rfl | rfl | rfl | rfl | rfl
    · decide +kernel
    · exact line_ok (by decide +kernel) (by decide +kernel) (metricsStr_no_newline hs hc)
    · exact line_ok (by decide +kernel) (by decide +kernel) (noiseValue_ok _)
    · exact line_ok (by decide +kernel) (by decide +kernel) (hs.noNewline _)
    · decide +kernel
  · exact optionalLines_ok (entries_ok hs p pub) a h

theorem select_lines_ok {N : Type} {str : N → Text} (hs : Numerals str) (p : SelectParams N) (pub : Option Bool) :
    ∀ a ∈ p.lines str pub, '\n' ∉ a ∧ a ≠ [] := by
  intro a ha
  rcases List.mem_append.mp ha with h | h
  · simp only [List.mem_cons, List.not_mem_nil, or_false] at h
    rcases h with rfl | rfl | rfl
    · decide +kernel
    · exact line_ok (by decide +kernel) (by decide +kernel) (hs.noNewline _)
    · decide +kernel
  · refine optionalLines_ok ?_ a h
    intro x hx
    simp only [List.mem_cons, List.not_mem_nil, or_false] at hx
    rcases hx with rfl | rfl
    · exact number_ok hs (by decide +kernel) (by decide +kernel) (some p.maxPartitions)
    · exact selection_ok pub

theorem noise_lines_ok {N : Type} {str : N → Text} (hs : Numerals str) (p : NoiseParams N) (pub : Option Bool) :
    ∀ a ∈ p.lines str pub, '\n' ∉ a ∧ a ≠ [] := by
  intro a ha
  rcases List.mem_append.mp ha with h | h
  · simp only [List.mem_cons, List.not_mem_nil, or_false] at h
    rcases h with rfl | rfl | rfl | rfl
    · decide +kernel
    · exact line_ok (by decide +kernel) (by decide +kernel) (noiseValue_ok _)
    · exact line_ok (by decide +kernel) (by decide +kernel) (hs.noNewline _)
    · decide +kernel
  · refine optionalLines_ok ?_ a h
    intro x hx
    simp only [List.mem_cons, List.not_mem_nil, or_false] at hx
    rw [hx]; exact selection_ok pub

theorem newline_eq : txt "\n" = '\n' :: [] := by decide +kernel

/-- Which entries have a value is seen in the lines. -/
theorem mem_optionalLines {l : List (Text × Option Text)} (hp : (l.map Prod.fst).Pairwise (fun t t' => ¬ t <+: t' ∧ ¬ t' <+: t))
    {t : Text} {o : Option Text} (h : (t, o) ∈ l) (v : Text) : t ++ v ∈ optionalLines l ↔ o = some v := by
  induction l with
  | nil => simp at h
  | cons x l ih =>
    rw [List.map_cons, List.pairwise_cons] at hp
    have other : ∀ {t' : Text} {o' : Option Text}, (t', o') ∈ l → ∀ w w', x.1 ++ w ≠ t' ++ w' := by
      intro t' o' hm w w' he
      have h1 := hp.1 t' (List.mem_map.mpr ⟨_, hm, rfl⟩)
      have p1 : x.1 <+: x.1 ++ w := List.prefix_append _ _
      have p2 : t' <+: x.1 ++ w := by rw [he]; exact List.prefix_append _ _
      rcases List.prefix_or_prefix_of_prefix p1 p2 with h | h
      · exact h1.1 h
      · exact h1.2 h
    have hcons : t ++ v ∈ optionalLines (x :: l) ↔ (∃ w, x.2 = some w ∧ x.1 ++ w = t ++ v) ∨ t ++ v ∈ optionalLines l := by
      rcases x with ⟨t', _ | w⟩ <;> simp [optionalLines, eq_comm]
    rw [hcons]
    rcases List.mem_cons.mp h with rfl | h
    · constructor
      · rintro (⟨w, hw, he⟩ | hm)
        · exact hw.trans (congrArg some (List.append_cancel_left he))
        · exfalso
          obtain ⟨y, hy, hv⟩ := List.mem_filterMap.mp hm
          obtain ⟨w, -, hw⟩ := Option.map_eq_some_iff.mp hv
          exact other (t' := y.1) (o' := y.2) hy v w hw.symm
      · exact fun hv => Or.inl ⟨v, hv, rfl⟩
    · rw [← ih hp.2 h]
      constructor
      · rintro (⟨w, -, he⟩ | hm)
        · exact absurd he (other h w v)
        · exact hm
      · exact Or.inr

theorem isLine_iff {L : List Text} (h : ∀ a ∈ L, '\n' ∉ a ∧ a ≠ []) (hL : L ≠ []) (l : Text) :
    IsLine l (List.intercalate (txt "\n") L) ↔ l ∈ L := by
  unfold IsLine
  rw [newline_eq, List.splitOn_intercalate _ (fun a ha => (h a ha).1) hL]

theorem metricName_eq {N : Type} (str : N → Text) (m : Metric N) : metricName str m = m.text str := by
  cases m <;> rfl

theorem namesList_eq {N : Type} (str : N → Text) (ms : List (Metric N)) :
    namesList (ms.map (metricName str)) = listText (ms.map fun m => quoted (m.text str)) := by
  unfold namesList listText
  rw [List.map_map]
  have h : (fun n : Text => "'".toList ++ n ++ "'".toList) ∘ metricName str = fun m => quoted (m.text str) := by
    funext m
    rw [Function.comp, metricName_eq]; rfl
  rw [h]; rfl

/-- All lines of `AggregateParams`, as entries. -/
def AggregateParams.allEntries {N : Type} (str : N → Text) (p : AggregateParams N) (pub : Option Bool) : List (Text × Option Text) :=
  [(txt "AggregateParams:", some []),
   (txt " metrics=", some (listText ((p.metrics.getD []).map fun m => quoted (m.text str)))),
   (txt " noise_kind=", some (noiseValue p.noiseKind)), (txt " budget_weight=", some (str p.budgetWeight)),
   (txt " Contribution bounding:", some [])] ++ p.entries str pub

theorem lines_eq_allEntries {N : Type} (str : N → Text) {p : AggregateParams N} (hc : p.customNames = []) (pub : Option Bool) :
    p.lines str pub = optionalLines (p.allEntries str pub) := by
  have h : txt " metrics=" = txt " " ++ txt "metrics=" := by decide +kernel
  unfold AggregateParams.lines AggregateParams.allEntries
  rw [metricsStr_eq str hc, h]
  simp only [optionalLines, List.cons_append, List.nil_append, List.filterMap_cons, Option.map_some, List.append_nil, List.append_assoc]

theorem all_tags_apart {N : Type} (str : N → Text) (p : AggregateParams N) (pub : Option Bool) :
    ((p.allEntries str pub).map Prod.fst).Pairwise (fun t t' => ¬ t <+: t' ∧ ¬ t' <+: t) := by
  simp only [AggregateParams.allEntries, AggregateParams.entries, selectionEntry, List.cons_append, List.nil_append, List.map_cons,
    List.map_nil]
  decide +kernel

theorem line_iff {N : Type} {str : N → Text} (hs : Numerals str) {p : AggregateParams N} (hc : p.customNames = []) (pub : Option Bool)
    {t : Text} {o : Option Text} (h : (t, o) ∈ p.allEntries str pub) (v : Text) : IsLine (t ++ v) (p.readable str pub) ↔ o = some v := by
  unfold AggregateParams.readable
  rw [isLine_iff (aggregate_lines_ok hs hc pub) (by simp [AggregateParams.lines]), lines_eq_allEntries str hc,
    mem_optionalLines (all_tags_apart str p pub) h]

theorem selection_iff : ∀ (pub : Option Bool) (b : Bool),
    (selectionEntry pub).2 = some ((if b then txt "public" else txt "private") ++ txt " partitions") ↔ pub = some b := by
  unfold selectionEntry; decide +kernel

theorem map_str_iff {N : Type} {str : N → Text} (hs : Numerals str) (o : Option N) (x : N) : o.map str = some (str x) ↔ o = some x := by
  rw [Option.map_eq_some_iff]
  constructor
  · rintro ⟨y, hy, h⟩; rw [hy, hs.injective h]
  · exact fun h => ⟨x, h, rfl⟩

/-- All lines of `SelectPartitionsParams`, as entries. -/
def SelectParams.allEntries {N : Type} (str : N → Text) (p : SelectParams N) (pub : Option Bool) : List (Text × Option Text) :=
  [(txt "SelectPartitionsParams:", some []), (txt " budget_weight=", some (str p.budgetWeight)), (txt " Contribution bounding:", some []),
   (txt "  max_partitions_contributed=", some (str p.maxPartitions)), selectionEntry pub]

theorem select_lines_eq {N : Type} (str : N → Text) (p : SelectParams N) (pub : Option Bool) :
    p.lines str pub = optionalLines (p.allEntries str pub) := by
  simp only [SelectParams.lines, SelectParams.allEntries, optionalLines, List.cons_append, List.nil_append, List.filterMap_cons,
    Option.map_some, List.append_nil]

theorem select_tags_apart {N : Type} (str : N → Text) (p : SelectParams N) (pub : Option Bool) :
    ((p.allEntries str pub).map Prod.fst).Pairwise (fun t t' => ¬ t <+: t' ∧ ¬ t' <+: t) := by
  simp only [SelectParams.allEntries, selectionEntry, List.map_cons, List.map_nil]
  decide +kernel

/-- All lines of `AddDPNoiseParams`, as entries. -/
def NoiseParams.allEntries {N : Type} (str : N → Text) (p : NoiseParams N) (pub : Option Bool) : List (Text × Option Text) :=
  [(txt "AddDPNoiseParams:", some []), (txt " noise_kind=", some (noiseValue p.noiseKind)),
   (txt " budget_weight=", some (str p.budgetWeight)), (txt " Contribution bounding:", some []), selectionEntry pub]

theorem noise_lines_eq {N : Type} (str : N → Text) (p : NoiseParams N) (pub : Option Bool) :
    p.lines str pub = optionalLines (p.allEntries str pub) := by
  simp only [NoiseParams.lines, NoiseParams.allEntries, optionalLines, List.cons_append, List.nil_append, List.filterMap_cons,
    Option.map_some, List.append_nil]

theorem noise_tags_apart {N : Type} (str : N → Text) (p : NoiseParams N) (pub : Option Bool) :
    ((p.allEntries str pub).map Prod.fst).Pairwise (fun t t' => ¬ t <+: t' ∧ ¬ t' <+: t) := by
  simp only [NoiseParams.allEntries, selectionEntry, List.map_cons, List.map_nil]
  decide +kernel

/-! ### Property -/

/-- **C87.**  Every shown parameter has its value on the line with its own name, and there is such a line only then. -/
theorem C87_lines_show_parameters {N : Type} {str : N → Text} (hs : Numerals str) {p : AggregateParams N} (hc : p.customNames = [])
    (pub : Option Bool) (x : N) (ms : List (Metric N)) :
    (IsLine (" metrics=".toList ++ namesList (ms.map (metricName str))) (p.readable str pub) ↔ p.metrics.getD [] = ms)
    ∧ (IsLine " noise_kind=laplace".toList (p.readable str pub) ↔ p.noiseKind = .laplace)
    ∧ (IsLine " noise_kind=gaussian".toList (p.readable str pub) ↔ p.noiseKind = .gaussian)
    ∧ (IsLine (" budget_weight=".toList ++ str x) (p.readable str pub) ↔ p.budgetWeight = x)
    ∧ (IsLine ("  max_partitions_contributed=".toList ++ str x) (p.readable str pub) ↔ p.maxPartitions = some x)
    ∧ (IsLine ("  max_contributions_per_partition=".toList ++ str x) (p.readable str pub) ↔ p.maxPerPartition = some x)
    ∧ (IsLine ("  max_contributions=".toList ++ str x) (p.readable str pub) ↔ p.maxContributions = some x)
    ∧ (IsLine ("  min_value=".toList ++ str x) (p.readable str pub) ↔ p.minValue = some x)
    ∧ (IsLine ("  max_value=".toList ++ str x) (p.readable str pub) ↔ p.maxValue = some x)
    ∧ (IsLine ("  min_sum_per_partition=".toList ++ str x) (p.readable str pub) ↔ p.minSum = some x)
    ∧ (IsLine ("  max_sum_per_partition=".toList ++ str x) (p.readable str pub) ↔ p.maxSum = some x)
    ∧ (IsLine "  contribution_bounds_already_enforced=True".toList (p.readable str pub) ↔ p.boundsEnforced = true)
    ∧ (IsLine ("  vector_max_norm=".toList ++ str x) (p.readable str pub) ↔ p.vectorMaxNorm = some x)
    ∧ (IsLine ("  vector_size=".toList ++ str x) (p.readable str pub) ↔ p.vectorSize = some x)
    ∧ (IsLine "  vector_norm_kind=NormKind.Linf".toList (p.readable str pub) ↔ p.vectorNormKind = some .linf)
    ∧ (IsLine "  vector_norm_kind=NormKind.L0".toList (p.readable str pub) ↔ p.vectorNormKind = some .l0)
    ∧ (IsLine "  vector_norm_kind=NormKind.L1".toList (p.readable str pub) ↔ p.vectorNormKind = some .l1)
    ∧ (IsLine "  vector_norm_kind=NormKind.L2".toList (p.readable str pub) ↔ p.vectorNormKind = some .l2)
    ∧ (IsLine " Partition selection: public partitions".toList (p.readable str pub) ↔ pub = some true)
    ∧ (IsLine " Partition selection: private partitions".toList (p.readable str pub) ↔ pub = some false) := by
  have L := fun {t : Text} {o : Option Text} => line_iff (t := t) (o := o) hs hc pub
  have hnoise : ∀ k, IsLine (txt " noise_kind=" ++ noiseValue k) (p.readable str pub) ↔ p.noiseKind = k := fun k => by
    rw [L (o := some (noiseValue p.noiseKind)) (by simp [AggregateParams.allEntries]), Option.some.injEq, noiseValue_inj.eq_iff]
  have hnorm : ∀ k, IsLine (txt "  vector_norm_kind=" ++ normText k) (p.readable str pub) ↔ p.vectorNormKind = some k := fun k => by
    rw [L (o := p.vectorNormKind.map normText) (by simp [AggregateParams.allEntries, AggregateParams.entries]), Option.map_eq_some_iff]
    constructor
    · rintro ⟨y, hy, h⟩; rw [hy, normText_inj h]
    · exact fun h => ⟨k, h, rfl⟩
  have hpub : ∀ b, IsLine (txt " Partition selection: " ++ ((if b then txt "public" else txt "private") ++ txt " partitions"))
      (p.readable str pub) ↔ pub = some b := fun b => by
    rw [L (o := (selectionEntry pub).2) (by simp [AggregateParams.allEntries, AggregateParams.entries, selectionEntry])]
    exact selection_iff pub b
  refine ⟨?_, ?_, ?_, ?_, ?_, ?_, ?_, ?_, ?_, ?_, ?_, ?_, ?_, ?_, ?_, ?_, ?_, ?_, ?_, ?_⟩
  · rw [namesList_eq]
    refine (L (o := some (listText ((p.metrics.getD []).map fun m => quoted (m.text str)))) (by simp [AggregateParams.allEntries, txt]) _).trans ?_
    rw [Option.some.injEq]
    constructor
    · intro h
      have := metricsStr_inj (p' := { p with metrics := some ms }) hs hc hc
        (by rw [metricsStr_eq str hc, metricsStr_eq (p := { p with metrics := some ms }) str hc]; exact congrArg _ h)
      simpa using this
    · rintro rfl; rfl
  · exact hnoise .laplace
  · exact hnoise .gaussian
  · refine (L (o := some (str p.budgetWeight)) (by simp [AggregateParams.allEntries, txt]) _).trans ?_
    rw [Option.some.injEq, hs.injective.eq_iff]
  · exact (L (o := p.maxPartitions.map str) (by simp [AggregateParams.allEntries, AggregateParams.entries, txt]) _).trans (map_str_iff hs _ x)
  · exact (L (o := p.maxPerPartition.map str) (by simp [AggregateParams.allEntries, AggregateParams.entries, txt]) _).trans (map_str_iff hs _ x)
  · exact (L (o := p.maxContributions.map str) (by simp [AggregateParams.allEntries, AggregateParams.entries, txt]) _).trans (map_str_iff hs _ x)
  · exact (L (o := p.minValue.map str) (by simp [AggregateParams.allEntries, AggregateParams.entries, txt]) _).trans (map_str_iff hs _ x)
  · exact (L (o := p.maxValue.map str) (by simp [AggregateParams.allEntries, AggregateParams.entries, txt]) _).trans (map_str_iff hs _ x)
  · exact (L (o := p.minSum.map str) (by simp [AggregateParams.allEntries, AggregateParams.entries, txt]) _).trans (map_str_iff hs _ x)
  · exact (L (o := p.maxSum.map str) (by simp [AggregateParams.allEntries, AggregateParams.entries, txt]) _).trans (map_str_iff hs _ x)
  · have h := L (t := txt "  contribution_bounds_already_enforced=True") (o := if p.boundsEnforced then some [] else none)
      (by simp [AggregateParams.allEntries, AggregateParams.entries]) []
    rw [List.append_nil] at h
    refine h.trans ?_
    cases p.boundsEnforced <;> simp
  · exact (L (o := p.vectorMaxNorm.map str) (by simp [AggregateParams.allEntries, AggregateParams.entries, txt]) _).trans (map_str_iff hs _ x)
  · exact (L (o := p.vectorSize.map str) (by simp [AggregateParams.allEntries, AggregateParams.entries, txt]) _).trans (map_str_iff hs _ x)
  · exact hnorm .linf
  · exact hnorm .l0
  · exact hnorm .l1
  · exact hnorm .l2
  · exact hpub true
  · exact hpub false

/-- **C87.**  Two `AggregateParams` without custom combiners have the same text exactly if they agree in everything the text shows:
metrics, noise kind, weight, all bounds and the vector parameters, and in whether the partitions are public.  So no bound can be read as
another one, and a report tells apart any two settings of these. -/
theorem C87_text_determines_parameters {N : Type} {str : N → Text} (hs : Numerals str) {p p' : AggregateParams N}
    (hc : p.customNames = []) (hc' : p'.customNames = []) (pub pub' : Option Bool) :
    p.readable str pub = p'.readable str pub' ↔ SameShown p p' ∧ pub = pub' := by
  constructor
  · intro h
    unfold AggregateParams.readable at h
    rw [newline_eq] at h
    have h := intercalate_inj (aggregate_lines_ok hs hc pub) (aggregate_lines_ok hs hc' pub') h
    simp only [AggregateParams.lines, List.cons_append, List.nil_append, List.cons.injEq, true_and] at h
    obtain ⟨hm, hn, hb, hl⟩ := h
    have he : p.entries str pub = p'.entries str pub' := optionalLines_inj rfl tags_apart hl
    simp only [AggregateParams.entries, List.cons.injEq, Prod.mk.injEq, true_and, and_true] at he
    obtain ⟨e1, e2, e3, e4, e5, e6, e7, e8, e9, e10, e11, e12⟩ := he
    have num : ∀ {o o' : Option N}, o.map str = o'.map str → o = o' := fun h => Option.map_injective hs.injective h
    refine ⟨⟨metricsStr_inj hs hc hc' (List.append_cancel_left hm), noiseValue_inj (List.append_cancel_left hn),
      hs.injective (List.append_cancel_left hb), num e1, num e2, num e3, num e4, num e5, num e6, num e7, ?_, num e9, num e10,
      Option.map_injective normText_inj e11⟩, selection_inj (congrArg Prod.snd e12)⟩
    revert e8
    cases p.boundsEnforced <;> cases p'.boundsEnforced <;> simp
  · rintro ⟨h, rfl⟩
    unfold AggregateParams.readable AggregateParams.lines AggregateParams.entries
    rw [metricsStr_eq str hc, metricsStr_eq str hc', h.metrics, h.noiseKind, h.budgetWeight, h.maxPartitions, h.maxPerPartition,
      h.maxContributions, h.minValue, h.maxValue, h.minSum, h.maxSum, h.boundsEnforced, h.vectorMaxNorm, h.vectorSize,
      h.vectorNormKind]

/-- **C87.**  The text of `SelectPartitionsParams` is that of the weight, of the number of partitions and of whether the partitions are
public: the strategy and the pre-threshold, which decide what is released, are not shown. -/
theorem C87_select_partitions_text {N : Type} {str : N → Text} (hs : Numerals str) (p p' : SelectParams N) (pub pub' : Option Bool) :
    p.readable str pub = p'.readable str pub' ↔
      p.budgetWeight = p'.budgetWeight ∧ p.maxPartitions = p'.maxPartitions ∧ pub = pub' := by
  constructor
  · intro h
    unfold SelectParams.readable at h
    rw [newline_eq] at h
    have h := intercalate_inj (select_lines_ok hs p pub) (select_lines_ok hs p' pub') h
    simp only [SelectParams.lines, List.cons_append, List.nil_append, List.cons.injEq, true_and] at h
    obtain ⟨hb, hl⟩ := h
    have he := optionalLines_inj (by rfl) (by simp only [List.map_cons, List.map_nil, selectionEntry]; decide +kernel) hl
    simp only [List.cons.injEq, Prod.mk.injEq, true_and, and_true, Option.some.injEq] at he
    exact ⟨hs.injective (List.append_cancel_left hb), hs.injective he.1, selection_inj (congrArg Prod.snd he.2)⟩
  · rintro ⟨h1, h2, rfl⟩
    unfold SelectParams.readable SelectParams.lines
    rw [h1, h2]

/-- **C87.**  The text of `AddDPNoiseParams` is that of the noise kind and the weight: the sensitivities, which scale the noise, are not
shown. -/
theorem C87_add_dp_noise_text {N : Type} {str : N → Text} (hs : Numerals str) (p p' : NoiseParams N) (pub pub' : Option Bool) :
    p.readable str pub = p'.readable str pub' ↔
      p.noiseKind = p'.noiseKind ∧ p.budgetWeight = p'.budgetWeight ∧ pub = pub' := by
  constructor
  · intro h
    unfold NoiseParams.readable at h
    rw [newline_eq] at h
    have h := intercalate_inj (noise_lines_ok hs p pub) (noise_lines_ok hs p' pub') h
    simp only [NoiseParams.lines, List.cons_append, List.nil_append, List.cons.injEq, true_and] at h
    obtain ⟨hn, hb, hl⟩ := h
    have he := optionalLines_inj (by rfl) (by simp) hl
    simp only [List.cons.injEq, and_true] at he
    exact ⟨noiseValue_inj (List.append_cancel_left hn), hs.injective (List.append_cancel_left hb),
      selection_inj (congrArg Prod.snd he)⟩
  · rintro ⟨h1, h2, rfl⟩
    unfold NoiseParams.readable NoiseParams.lines
    rw [h1, h2]

/-- **C87.**  The text tells which operation the parameters are for. -/
theorem C87_text_tells_the_operation {N : Type} {str : N → Text} (hs : Numerals str) {a : AggregateParams N} (hc : a.customNames = [])
    (s : SelectParams N) (n : NoiseParams N) (p1 p2 p3 : Option Bool) :
    a.readable str p1 ≠ s.readable str p2 ∧ a.readable str p1 ≠ n.readable str p3 ∧ s.readable str p2 ≠ n.readable str p3 := by
  unfold AggregateParams.readable SelectParams.readable NoiseParams.readable
  rw [newline_eq]
  refine ⟨fun h => ?_, fun h => ?_, fun h => ?_⟩
  · have h := intercalate_inj (aggregate_lines_ok hs hc p1) (select_lines_ok hs s p2) h
    simp only [AggregateParams.lines, SelectParams.lines, List.cons_append, List.cons.injEq] at h
    exact absurd h.1 (by decide +kernel)
  · have h := intercalate_inj (aggregate_lines_ok hs hc p1) (noise_lines_ok hs n p3) h
    simp only [AggregateParams.lines, NoiseParams.lines, List.cons_append, List.cons.injEq] at h
    exact absurd h.1 (by decide +kernel)
  · have h := intercalate_inj (select_lines_ok hs s p2) (noise_lines_ok hs n p3) h
    simp only [SelectParams.lines, NoiseParams.lines, List.cons_append, List.cons.injEq] at h
    exact absurd h.1 (by decide +kernel)

/-- **C87.**  The lines of the other two operations show what they name, too. -/
theorem C87_other_lines_show_parameters {N : Type} {str : N → Text} (hs : Numerals str) (s : SelectParams N) (n : NoiseParams N)
    (pub : Option Bool) (x : N) :
    (IsLine (" budget_weight=".toList ++ str x) (s.readable str pub) ↔ s.budgetWeight = x)
    ∧ (IsLine ("  max_partitions_contributed=".toList ++ str x) (s.readable str pub) ↔ s.maxPartitions = x)
    ∧ (IsLine " Partition selection: public partitions".toList (s.readable str pub) ↔ pub = some true)
    ∧ (IsLine " Partition selection: private partitions".toList (s.readable str pub) ↔ pub = some false)
    ∧ (IsLine " noise_kind=laplace".toList (n.readable str pub) ↔ n.noiseKind = .laplace)
    ∧ (IsLine " noise_kind=gaussian".toList (n.readable str pub) ↔ n.noiseKind = .gaussian)
    ∧ (IsLine (" budget_weight=".toList ++ str x) (n.readable str pub) ↔ n.budgetWeight = x)
    ∧ (IsLine " Partition selection: public partitions".toList (n.readable str pub) ↔ pub = some true)
    ∧ (IsLine " Partition selection: private partitions".toList (n.readable str pub) ↔ pub = some false) := by
  have hS : ∀ {t : Text} {o : Option Text}, (t, o) ∈ s.allEntries str pub → ∀ v,
      (IsLine (t ++ v) (s.readable str pub) ↔ o = some v) := by
    intro t o h v
    unfold SelectParams.readable
    rw [isLine_iff (select_lines_ok hs s pub) (by simp [SelectParams.lines]), select_lines_eq,
      mem_optionalLines (select_tags_apart str s pub) h]
  have hN : ∀ {t : Text} {o : Option Text}, (t, o) ∈ n.allEntries str pub → ∀ v,
      (IsLine (t ++ v) (n.readable str pub) ↔ o = some v) := by
    intro t o h v
    unfold NoiseParams.readable
    rw [isLine_iff (noise_lines_ok hs n pub) (by simp [NoiseParams.lines]), noise_lines_eq,
      mem_optionalLines (noise_tags_apart str n pub) h]
  have hk : ∀ k, IsLine (txt " noise_kind=" ++ noiseValue k) (n.readable str pub) ↔ n.noiseKind = k := fun k => by
    rw [hN (o := some (noiseValue n.noiseKind)) (by simp [NoiseParams.allEntries]), Option.some.injEq, noiseValue_inj.eq_iff]
  have hSp : ∀ b, IsLine (txt " Partition selection: " ++ ((if b then txt "public" else txt "private") ++ txt " partitions"))
      (s.readable str pub) ↔ pub = some b := fun b => by
    rw [hS (o := (selectionEntry pub).2) (by simp [SelectParams.allEntries, selectionEntry])]
    exact selection_iff pub b
  have hNp : ∀ b, IsLine (txt " Partition selection: " ++ ((if b then txt "public" else txt "private") ++ txt " partitions"))
      (n.readable str pub) ↔ pub = some b := fun b => by
    rw [hN (o := (selectionEntry pub).2) (by simp [NoiseParams.allEntries, selectionEntry])]
    exact selection_iff pub b
  refine ⟨?_, ?_, hSp true, hSp false, hk .laplace, hk .gaussian, ?_, hNp true, hNp false⟩
  · refine (hS (o := some (str s.budgetWeight)) (by simp [SelectParams.allEntries, txt]) _).trans ?_
    rw [Option.some.injEq, hs.injective.eq_iff]
  · refine (hS (o := some (str s.maxPartitions)) (by simp [SelectParams.allEntries, txt]) _).trans ?_
    rw [Option.some.injEq, hs.injective.eq_iff]
  · refine (hN (o := some (str n.budgetWeight)) (by simp [NoiseParams.allEntries, txt]) _).trans ?_
    rw [Option.some.injEq, hs.injective.eq_iff]

/-- **C87.**  The text begins with the name of the class of the parameters. -/
theorem C87_text_begins_with_the_class {N : Type} (str : N → Text) (a : AggregateParams N) (s : SelectParams N) (n : NoiseParams N)
    (pub : Option Bool) :
    "AggregateParams:\n".toList <+: a.readable str pub ∧ "SelectPartitionsParams:\n".toList <+: s.readable str pub
      ∧ "AddDPNoiseParams:\n".toList <+: n.readable str pub := by
  have key : ∀ (t u h : Text) (l : List Text), h = t ++ txt "\n" → h <+: List.intercalate (txt "\n") (t :: u :: l) := by
    intro t u h l hh
    rw [intercalate_cons₂, ← List.append_assoc, hh]
    exact List.prefix_append _ _
  exact ⟨key _ _ _ _ (by decide +kernel), key _ _ _ _ (by decide +kernel), key _ _ _ _ (by decide +kernel)⟩

/-! ### Non-vacuity -/

/-- Numerals of natural numbers in base one, as an instance of `Numerals`. -/
def tally (n : ℕ) : Text := List.replicate n '1'

theorem tally_numerals : Numerals tally := by
  refine ⟨fun a b h => ?_, fun n h => ?_, fun n h => ?_⟩
  · simpa [tally] using congrArg List.length h
  · exact absurd (List.eq_of_mem_replicate h) (by decide)
  · exact absurd (List.eq_of_mem_replicate h) (by decide)

/-- Count and the second percentile, two partitions with three contributions each. -/
def exampleShown : AggregateParams ℕ :=
  { metrics := some [.count, .percentile 2], noiseKind := .gaussian, maxPartitions := some 2, maxPerPartition := some 3,
    maxContributions := none, budgetWeight := 1, minValue := some 0, maxValue := some 1, minSum := none, maxSum := none,
    customNames := [], vectorNormKind := none, vectorMaxNorm := none, vectorSize := none, boundsEnforced := true,
    publicFiltered := false, strategy := .truncatedGeometric, preThreshold := none, postThresholding := false, performCross := true }

example : exampleShown.readable tally (some false) = txt ("AggregateParams:\n metrics=['COUNT', 'PERCENTILE(11)']\n" ++
    " noise_kind=gaussian\n budget_weight=1\n Contribution bounding:\n  max_partitions_contributed=11\n" ++
    "  max_contributions_per_partition=111\n  min_value=\n  max_value=1\n  contribution_bounds_already_enforced=True\n" ++
    " Partition selection: private partitions") := by
  decide +kernel

/-- A bound moved to another parameter is seen, -/
example : exampleShown.readable tally none ≠
    { exampleShown with maxPerPartition := none, maxContributions := some 3 }.readable tally none := by
  rw [Ne, C87_text_determines_parameters tally_numerals rfl rfl]
  rintro ⟨h, -⟩
  exact absurd h.maxPerPartition (by decide)

/-- while another strategy with a pre-threshold is not. -/
example : exampleShown.readable tally none =
    { exampleShown with strategy := .laplaceThresholding, preThreshold := some 7 }.readable tally none :=
  (C87_text_determines_parameters tally_numerals rfl rfl none none).mpr
    ⟨⟨rfl, rfl, rfl, rfl, rfl, rfl, rfl, rfl, rfl, rfl, rfl, rfl, rfl, rfl⟩, rfl⟩

example : (SelectParams.mk 2 1 .truncatedGeometric none : SelectParams ℕ).readable tally (some false) =
    (SelectParams.mk 2 1 .gaussianThresholding (some 9)).readable tally (some false) :=
  (C87_select_partitions_text tally_numerals _ _ _ _).mpr ⟨rfl, rfl, rfl⟩

/-- Noise for sensitivities 1, 1 and for 50, 60 is reported with the same text. -/
example : (NoiseParams.mk .laplace 1 1 2 : NoiseParams ℕ).readable tally (some true) =
    (NoiseParams.mk .laplace 50 60 2).readable tally (some true) :=
  (C87_add_dp_noise_text tally_numerals _ _ _ _).mpr ⟨rfl, rfl, rfl⟩

example : exampleShown.readable tally none ≠ (SelectParams.mk 2 1 .truncatedGeometric none : SelectParams ℕ).readable tally none :=
  (C87_text_tells_the_operation tally_numerals rfl _ (NoiseParams.mk .laplace 1 1 1) none none none).1

/-- The line of the bound is there, -/
example : IsLine ("  max_contributions_per_partition=".toList ++ tally 3) (exampleShown.readable tally none) :=
  (C87_lines_show_parameters tally_numerals rfl none 3 []).2.2.2.2.2.1.mpr rfl

/-- and none for a bound that is not given. -/
example : ¬ IsLine ("  max_contributions=".toList ++ tally 3) (exampleShown.readable tally none) := fun h =>
  absurd ((C87_lines_show_parameters tally_numerals rfl none 3 []).2.2.2.2.2.2.1.mp h) (by decide)

example : IsLine ("  max_partitions_contributed=".toList ++ tally 2)
    ((SelectParams.mk 2 1 .truncatedGeometric none : SelectParams ℕ).readable tally none) :=
  (C87_other_lines_show_parameters tally_numerals _ (NoiseParams.mk .laplace 1 1 1) none 2).2.1.mpr rfl

end PDP.Engine.Readable
