import Verif.Private.DataFrame

/-!
# Running a DataFrame query (`pipeline_dp/dataframes.py:66-244`)

A row of the DataFrame is a function from columns to cells. The DP engine is a parameter: it gets parameters, rows (privacy key,
partition key, value) and public keys, and returns (partition key, released metrics by name).
-/

set_option linter.unusedVariables false

namespace PDP.DataFrame

open PDP.Engine (Params Metric NoiseKind)

/-! ### Model -/

/-- The columns of the grouping. -/
def By.columns : By → List String
  | .one c => [c]
  | .many cs => cs

/-- `columns_to_keep` (`dataframes.py:74-85`). -/
def Query.columnsToKeep (q : Query) : List String := q.privacyColumn :: q.by_.columns ++ q.input.toList

/-- `extractor` (`dataframes.py:87-92`); the positions always exist. -/
def Query.extract (q : Query) (row : String → Cell) : Cell × Key × Cell :=
  let r := q.columnsToKeep.map row
  let n := q.by_.columns.length
  let key := if n = 1 then Key.scalar (r.getD 1 (.num 0)) else Key.tuple ((r.drop 1).take n)
  let value := if q.input.isSome then r.getD (1 + n) (.num 0) else .num 0
  (r.getD 0 (.num 0), key, value)

/-- The `AggregateParams` of `run_query` (`dataframes.py:187-195`). -/
def Query.params (q : Query) (noise : NoiseKind) : Params :=
  { noiseKind := noise, metrics := q.metrics.map Prod.fst, maxPartitions := q.maxPartitions,
    maxPerPartition := q.maxPerPartition, minValue := q.minValue, maxValue := q.maxValue }

/-- `metric.name.lower()` for the metrics a query can have. -/
def metricName (m : Metric) : String := m.name fun _ => ""

/-- `metrics_names_to_output_columns` (`dataframes.py:211-216`). -/
def Query.outputColumns (q : Query) : List (String × String) :=
  q.metrics.map fun m => (metricName m.1, m.2.getD (metricName m.1))

/-- Fields of the result tuple (`dataframes.py:218-224`). -/
def Query.fields (q : Query) : List String := q.by_.columns ++ q.outputColumns.map Prod.snd

/-- A value of the result: part of a key, or a metric. -/
inductive Out where
  | key (k : Key)
  | val (x : ℚ)
  deriving DecidableEq

/-- `d[k] = v`. -/
def setItem {X : Type} (d : List (String × X)) (k : String) (v : X) : List (String × X) :=
  if k ∈ d.map Prod.fst then d.map fun e => if e.1 = k then (k, v) else e else d ++ [(k, v)]

/-- Iterating over a partition key: a tuple gives its cells, a string its characters; a number is not iterable. -/
def Key.iter : Key → Except Err (List Key)
  | .tuple cs => .ok (cs.map .scalar)
  | .scalar (.str s) => .ok (s.toList.map fun c => .scalar (.str (String.singleton c)))
  | .scalar (.num _) => .error .typeError

/-- The key part of the dictionary (`dataframes.py:228-233`). -/
def keyItems (y : By) (k : Key) : Except Err (List (String × Out)) :=
  match y with
  | .one c => .ok [(c, .key k)]
  | .many cs =>
    match k.iter with
    | .error e => .error e
    | .ok ks => .ok ((cs.zip ks).foldl (fun d e => setItem d e.1 (.key e.2)) [])

/-- The metric part (`dataframes.py:234-237`). -/
def addMetrics (cols : List (String × String)) : List (String × Out) → List (String × ℚ) → Except Err (List (String × Out))
  | d, [] => .ok d
  | d, (name, x) :: ms =>
    match cols.lookup name with
    | none => .error .keyError
    | some col => addMetrics cols (setItem d col (.val x)) ms

/-- `PartitionMetricsTuple(**result)`: the values in the order of the fields; a missing or an unexpected field raises. -/
def toTuple (fields : List String) (d : List (String × Out)) : Except Err (List Out) :=
  if (d.map Prod.fst).all fun k => k ∈ fields then
    fields.mapM fun f => match d.lookup f with
      | none => .error .typeError
      | some v => .ok v
  else .error .typeError

/-- `convert_to_partition_metrics_tuple` (`dataframes.py:226-238`). -/
def Query.convert (q : Query) (row : Key × List (String × ℚ)) : Except Err (List Out) := do
  let d ← keyItems q.by_ row.1
  let d ← addMetrics q.outputColumns d row.2
  toTuple q.fields d

/-- `run_query` (`dataframes.py:168-244`): the header and the rows of the output. `ident` says which strings may be field names of a
`namedtuple`; repeated names are rejected too. -/
def Query.run (q : Query) (ident : String → Bool) (noise : NoiseKind) (df : List (String → Cell))
    (engine : Params → List (Cell × Key × Cell) → Option (List Key) → List (Key × List (String × ℚ))) :
    Except Err (List String × List (List Out)) :=
  let res := engine (q.params noise) (df.map q.extract) q.publicKeys
  if q.fields.all ident = true ∧ q.fields.Nodup then
    match res.mapM q.convert with
    | .error e => .error e
    | .ok rows => .ok (q.fields, rows)
  else .error .valueError

/-! ### Specification -/

/-- The cells of a key with the right shape for the grouping. -/
def ShapeOk (y : By) (k : Key) : Prop :=
  match y with
  | .one _ => True
  | .many cs => ∃ l, k = .tuple l ∧ l.length = cs.length

/-- The group-by cells of a result row. -/
def keyCells (y : By) (k : Key) : List Out :=
  match y, k with
  | .many _, .tuple l => l.map fun c => .key (.scalar c)
  | _, k => [.key k]

/-! ### Properties -/

/-- **C51.** Every row of the DataFrame goes to the engine with its own privacy key, the cells of the group-by columns, and the cell of
the input column (0 if there is none). -/
theorem C51_extract (q : Query) (row : String → Cell) :
    q.extract row = (row q.privacyColumn,
      (if q.by_.columns.length = 1 then .scalar (row (q.by_.columns.headD "")) else .tuple (q.by_.columns.map row)),
      match q.input with | none => .num 0 | some c => row c) := by
  unfold Query.extract Query.columnsToKeep
  dsimp only
  congr 1
  congr 1
  · by_cases h : q.by_.columns.length = 1
    · rw [if_pos h, if_pos h]
      obtain ⟨c, hc⟩ := List.length_eq_one_iff.mp h
      rw [hc]; rfl
    · rw [if_neg h, if_neg h]
      congr 1
      simp
  · cases q.input with
    | none => rfl
    | some c =>
      simp only [Option.isSome_some, if_true, Option.toList_some, List.cons_append, List.map_cons, List.map_append, List.map_nil]
      rw [Nat.add_comm, List.getD_cons_succ]
      simp [List.getD_eq_getElem?_getD]

theorem setItem_new {X : Type} (d : List (String × X)) (k : String) (v : X) (h : k ∉ d.map Prod.fst) :
    setItem d k v = d ++ [(k, v)] := by unfold setItem; rw [if_neg h]

theorem foldl_setItem : ∀ (l : List (String × Key)) (d : List (String × Out)),
    (d.map Prod.fst ++ l.map Prod.fst).Nodup →
    l.foldl (fun d e => setItem d e.1 (.key e.2)) d = d ++ l.map fun e => (e.1, .key e.2)
  | [], d, _ => by simp
  | e :: l, d, h => by
    have hn : e.1 ∉ d.map Prod.fst := fun hm => by
      rw [List.nodup_append] at h
      exact h.2.2 e.1 hm e.1 (by simp) rfl
    rw [List.foldl_cons, setItem_new _ _ _ hn, foldl_setItem l _ (by simpa using h)]
    simp

theorem keyItems_ok (y : By) (k : Key) (hk : ShapeOk y k) (hn : y.columns.Nodup) :
    keyItems y k = .ok (y.columns.zip (keyCells y k)) ∧ (keyCells y k).length = y.columns.length := by
  cases y with
  | one c => cases k <;> exact ⟨rfl, rfl⟩
  | many cs =>
    obtain ⟨l, rfl, hl⟩ := hk
    refine ⟨?_, by simp [keyCells, By.columns, hl]⟩
    have hz : (cs.zip (l.map Key.scalar)).map Prod.fst = cs := by
      rw [List.map_fst_zip (by simp [hl])]
    simp only [keyItems, Key.iter]
    rw [foldl_setItem _ [] (by simpa [hz, By.columns] using hn), List.nil_append]
    simp only [keyCells, By.columns]
    rw [List.zip_map_right, List.zip_map_right, List.map_map]
    rfl

theorem lookup_of_mem {X : Type} : ∀ (l : List (String × X)) (k : String) (v : X), (l.map Prod.fst).Nodup → (k, v) ∈ l →
    l.lookup k = some v
  | (a, b) :: l, k, v, hn, hm => by
    rw [List.map_cons, List.nodup_cons] at hn
    rw [List.lookup_cons]
    rcases List.mem_cons.mp hm with h | h
    · cases h; simp
    · have : k ≠ a := fun e => hn.1 (e ▸ List.mem_map.mpr ⟨(k, v), h, rfl⟩)
      rw [beq_false_of_ne this]
      exact lookup_of_mem l k v hn.2 h

theorem addMetrics_ok (cols : List (String × String)) (hn : (cols.map Prod.fst).Nodup) :
    ∀ (ms : List (String × ℚ)) (col : String → String) (d : List (String × Out)),
      (∀ e ∈ ms, (e.1, col e.1) ∈ cols) → (d.map Prod.fst ++ ms.map fun e => col e.1).Nodup →
      addMetrics cols d ms = .ok (d ++ ms.map fun e => (col e.1, .val e.2))
  | [], col, d, _, _ => by simp [addMetrics]
  | (name, x) :: ms, col, d, hc, h => by
    have hl : cols.lookup name = some (col name) := lookup_of_mem cols name (col name) hn (hc (name, x) (by simp))
    have hnew : col name ∉ d.map Prod.fst := fun hm => by
      rw [List.nodup_append] at h
      exact h.2.2 _ hm (col name) (by simp) rfl
    rw [addMetrics, hl]
    dsimp only
    rw [setItem_new _ _ _ hnew, addMetrics_ok cols hn ms col _ (fun e he => hc e (by simp [he])) (by simpa using h)]
    simp

theorem mapM_lookup (fields : List String) (d : List (String × Out)) (v : String → Out)
    (h : ∀ f ∈ fields, d.lookup f = some (v f)) :
    (fields.mapM fun f => match d.lookup f with
      | none => (.error .typeError : Except Err Out)
      | some v => .ok v) = .ok (fields.map v) := by
  induction fields with
  | nil => rfl
  | cons f fs ih =>
    rw [List.mapM_cons, h f (by simp), ih fun g hg => h g (by simp [hg])]
    rfl

theorem convert_ok (q : Query) (hf : q.fields.Nodup) (hm : (q.metrics.map fun m => metricName m.1).Nodup)
    (k : Key) (hk : ShapeOk q.by_ k) (ms : List (String × ℚ)) (hms : (ms.map Prod.fst).Perm (q.metrics.map fun m => metricName m.1))
    (value : String → ℚ) (hv : ∀ e ∈ ms, e.2 = value e.1) :
    q.convert (k, ms) = .ok (keyCells q.by_ k ++ q.metrics.map fun m => .val (value (metricName m.1))) := by
  have hfb : q.by_.columns.Nodup := (List.nodup_append.mp hf).1
  have hfo : (q.outputColumns.map Prod.snd).Nodup := (List.nodup_append.mp hf).2.1
  have hdis := (List.nodup_append.mp hf).2.2
  obtain ⟨hkey, hlen⟩ := keyItems_ok q.by_ k hk hfb
  have hn : (q.outputColumns.map Prod.fst).Nodup := by
    simpa [Query.outputColumns, Function.comp_def] using hm
  -- the column of a name
  obtain ⟨col, hcol⟩ : ∃ col : String → String, ∀ e ∈ q.outputColumns, col e.1 = e.2 := by
    refine ⟨fun s => (q.outputColumns.lookup s).getD "", fun e he => ?_⟩
    dsimp only
    rw [lookup_of_mem _ e.1 e.2 hn he]; rfl
  have hmem : ∀ e ∈ ms, (e.1, col e.1) ∈ q.outputColumns := by
    intro e he
    have : e.1 ∈ q.metrics.map fun m => metricName m.1 := hms.mem_iff.mp (List.mem_map.mpr ⟨e, he, rfl⟩)
    obtain ⟨m, hm', hme⟩ := List.mem_map.mp this
    have h' : (metricName m.1, m.2.getD (metricName m.1)) ∈ q.outputColumns := List.mem_map.mpr ⟨m, hm', rfl⟩
    have := hcol _ h'
    dsimp only at this
    rw [← hme, this]; exact h'
  have hperm : (ms.map fun e => col e.1).Perm (q.outputColumns.map Prod.snd) := by
    have h1 : (ms.map fun e => col e.1) = (ms.map Prod.fst).map col := by simp
    have h2 : q.outputColumns.map Prod.snd = (q.metrics.map fun m => metricName m.1).map col := by
      have : q.outputColumns.map Prod.snd = q.outputColumns.map fun e => col e.1 :=
        List.map_congr_left fun e he => (hcol e he).symm
      rw [this]
      simp [Query.outputColumns]
    rw [h1, h2]
    exact hms.map col
  have hzip : (q.by_.columns.zip (keyCells q.by_ k)).map Prod.fst = q.by_.columns := List.map_fst_zip (by omega)
  have hd : ((q.by_.columns.zip (keyCells q.by_ k)).map Prod.fst ++ ms.map fun e => col e.1).Nodup := by
    rw [hzip]
    exact (hperm.append_left _).nodup_iff.mpr hf
  unfold Query.convert
  simp only [hkey, bind, Except.bind]
  rw [addMetrics_ok q.outputColumns hn ms col _ hmem hd]
  dsimp only
  unfold toTuple
  have hkeys : ((q.by_.columns.zip (keyCells q.by_ k) ++ ms.map fun e => (col e.1, Out.val e.2)).map Prod.fst)
      = q.by_.columns ++ ms.map fun e => col e.1 := by
    rw [List.map_append, hzip]; simp
  rw [if_pos (by
    rw [hkeys, List.all_eq_true]
    intro f hf'
    rw [decide_eq_true_eq]
    exact (hperm.append_left _).mem_iff.mp hf')]
  have hdn : ((q.by_.columns.zip (keyCells q.by_ k) ++ ms.map fun e => (col e.1, Out.val e.2)).map Prod.fst).Nodup := by
    rw [hkeys]; rw [hzip] at hd; exact hd
  -- expected association
  have hassoc : ∀ e ∈ q.fields.zip (keyCells q.by_ k ++ q.metrics.map fun m => Out.val (value (metricName m.1))),
      e ∈ (q.by_.columns.zip (keyCells q.by_ k) ++ ms.map fun e => (col e.1, Out.val e.2)) := by
    intro e he
    unfold Query.fields at he
    rw [List.zip_append hlen.symm] at he
    rcases List.mem_append.mp he with he | he
    · exact List.mem_append.mpr (.inl he)
    · refine List.mem_append.mpr (.inr ?_)
      unfold Query.outputColumns at he
      rw [List.map_map, List.zip_map'] at he
      obtain ⟨m, hm', rfl⟩ := List.mem_map.mp he
      have : metricName m.1 ∈ ms.map Prod.fst := hms.mem_iff.mpr (List.mem_map.mpr ⟨m, hm', rfl⟩)
      obtain ⟨e, he, hee⟩ := List.mem_map.mp this
      refine List.mem_map.mpr ⟨e, he, ?_⟩
      have h' : (metricName m.1, m.2.getD (metricName m.1)) ∈ q.outputColumns := List.mem_map.mpr ⟨m, hm', rfl⟩
      have := hcol _ h'
      dsimp only at this
      simp only [Function.comp, hv e he, hee, this]
  have hflen : q.fields.length = (keyCells q.by_ k ++ q.metrics.map fun m => Out.val (value (metricName m.1))).length := by
    simp [Query.fields, Query.outputColumns, hlen]
  generalize hvals : (keyCells q.by_ k ++ q.metrics.map fun m => Out.val (value (metricName m.1))) = vals at hassoc hflen
  generalize (q.by_.columns.zip (keyCells q.by_ k) ++ ms.map fun e => (col e.1, Out.val e.2)) = d at hassoc hdn
  have : ∀ (fs : List String) (vs : List Out), fs.length = vs.length → (∀ e ∈ fs.zip vs, e ∈ d) →
      (fs.mapM fun f => match d.lookup f with
        | none => (.error .typeError : Except Err Out)
        | some v => .ok v) = .ok vs := by
    intro fs
    induction fs with
    | nil => intro vs h _; cases vs with
      | nil => rfl
      | cons _ _ => simp at h
    | cons f fs ih =>
      intro vs h hz
      cases vs with
      | nil => simp at h
      | cons v vs =>
        rw [List.mapM_cons, lookup_of_mem d f v hdn (hz (f, v) (by simp)), ih vs (by simpa using h) fun e he => hz e (by simp [he])]
        rfl
  exact this q.fields vals hflen hassoc

/-- **C51.** The output of a query. If the names of the output columns are acceptable, the grouping is a column or a list of other than
one column, and the engine returns keys of the shape of the grouping and, for every key, one value for each metric (in any order),
then the columns are the group-by columns followed by one column per aggregation in the order of the calls, and every row has the
cells of its key followed by the values of those metrics. -/
theorem C51_run (q : Query) (ident : String → Bool) (noise : NoiseKind) (df : List (String → Cell))
    (engine : Params → List (Cell × Key × Cell) → Option (List Key) → List (Key × List (String × ℚ)))
    (hid : ∀ f ∈ q.fields, ident f = true) (hf : q.fields.Nodup) (hm : (q.metrics.map fun m => metricName m.1).Nodup)
    (value : Key × List (String × ℚ) → String → ℚ)
    (hres : ∀ r ∈ engine (q.params noise) (df.map q.extract) q.publicKeys, ShapeOk q.by_ r.1 ∧
      (r.2.map Prod.fst).Perm (q.metrics.map fun m => metricName m.1) ∧ ∀ e ∈ r.2, e.2 = value r e.1) :
    q.run ident noise df engine = .ok (q.by_.columns ++ q.metrics.map (fun m => m.2.getD (metricName m.1)),
      (engine (q.params noise) (df.map q.extract) q.publicKeys).map fun r =>
        keyCells q.by_ r.1 ++ q.metrics.map fun m => .val (value r (metricName m.1))) := by
  unfold Query.run
  dsimp only
  rw [if_pos ⟨List.all_eq_true.mpr hid, hf⟩]
  have hfields : q.fields = q.by_.columns ++ q.metrics.map (fun m => m.2.getD (metricName m.1)) := by
    simp [Query.fields, Query.outputColumns]
  have : ∀ l : List (Key × List (String × ℚ)), (∀ r ∈ l, ShapeOk q.by_ r.1 ∧
      (r.2.map Prod.fst).Perm (q.metrics.map fun m => metricName m.1) ∧ ∀ e ∈ r.2, e.2 = value r e.1) →
      l.mapM q.convert = .ok (l.map fun r => keyCells q.by_ r.1 ++ q.metrics.map fun m => .val (value r (metricName m.1))) := by
    intro l
    induction l with
    | nil => intro _; rfl
    | cons r l ih =>
      intro h
      obtain ⟨h1, h2, h3⟩ := h r (by simp)
      rw [List.mapM_cons, convert_ok q hf hm r.1 h1 r.2 h2 (value r) h3, ih fun r' hr' => h r' (by simp [hr'])]
      rfl
  rw [this _ hres, hfields]

/-- **C51.** The engine is called with the requested noise, the aggregations in the order of the calls, the bounds given to
`groupby` and the caps given to the aggregations, the least value as least value and the greatest as greatest. -/
theorem C51_engine_parameters (b : Builder) (q : Query) (h : build b = .ok q) (noise : NoiseKind) :
    (q.params noise).noiseKind = noise ∧ (q.params noise).metrics = b.specs.map (fun s => s.metric) ∧
      (q.params noise).maxPartitions = b.maxPartitions ∧ (q.params noise).maxPerPartition = b.maxPerPartition ∧
      (q.params noise).maxContributions = none ∧ (q.params noise).boundsEnforced = false ∧
      ((∃ s ∈ b.specs, s.metric ≠ .count ∧ s.metric ≠ .privacyIdCount) →
        (∀ s ∈ b.specs, ∀ x, s.minValue = some x → (q.params noise).minValue = some x) ∧
        (∀ s ∈ b.specs, ∀ x, s.maxValue = some x → (q.params noise).maxValue = some x)) ∧
      ((∀ s ∈ b.specs, s.metric = .count ∨ s.metric = .privacyIdCount) →
        (q.params noise).minValue = none ∧ (q.params noise).maxValue = none) := by
  obtain ⟨-, h2, h3, h4, -, -, -, h8, h9⟩ := C51_query b q h
  refine ⟨rfl, ?_, h3, h4, rfl, rfl, fun hs => ⟨(h8 hs).1, (h8 hs).2.1⟩, h9⟩
  show q.metrics.map Prod.fst = _
  rw [h2]; simp

/-- Keys which come from the data have the shape of the grouping, unless it is a list of one column. -/
theorem C51_shape (q : Query) (h : ∀ c, q.by_ ≠ .many [c]) (row : String → Cell) : ShapeOk q.by_ (q.extract row).2.1 := by
  rw [C51_extract]
  cases hb : q.by_ with
  | one c => trivial
  | many cs =>
    have hl : cs.length ≠ 1 := fun hl => by
      obtain ⟨c, rfl⟩ := List.length_eq_one_iff.mp hl
      exact h c hb
    refine ⟨cs.map row, ?_, by simp⟩
    show (if cs.length = 1 then _ else Key.tuple (cs.map row)) = _
    rw [if_neg hl]

/-- **C51, defect.** With a list of one column the key is the cell itself, but it is unpacked like a tuple: of a string only the first
character is returned, and an empty string or a number makes the query fail. -/
theorem C51_one_element_list (q : Query) (c : String) (hb : q.by_ = .many [c]) (row : String → Cell)
    (hf : q.fields.Nodup) (hm : (q.metrics.map fun m => metricName m.1).Nodup) (ms : List (String × ℚ))
    (hms : (ms.map Prod.fst).Perm (q.metrics.map fun m => metricName m.1)) (value : String → ℚ) (hv : ∀ e ∈ ms, e.2 = value e.1) :
    (q.extract row).2.1 = .scalar (row c) ∧
      (∀ n, row c = .num n → q.convert ((q.extract row).2.1, ms) = .error .typeError) ∧
      (∀ ch s, row c = .str (String.ofList (ch :: s)) → q.convert ((q.extract row).2.1, ms)
        = .ok (.key (.scalar (.str (String.singleton ch))) :: q.metrics.map fun m => .val (value (metricName m.1)))) := by
  have hk : (q.extract row).2.1 = .scalar (row c) := by
    rw [C51_extract, hb]; rfl
  refine ⟨hk, ?_, ?_⟩
  · intro n hn
    rw [hk, hn]
    unfold Query.convert
    rw [hb]
    rfl
  · intro ch s hs
    rw [hk, hs]
    have hconv := convert_ok q hf hm (.tuple [.str (String.singleton ch)]) (by rw [hb]; exact ⟨_, rfl, rfl⟩) ms hms value hv
    rw [hb] at hconv
    have e : q.convert (.scalar (.str (String.ofList (ch :: s))), ms) = q.convert (.tuple [.str (String.singleton ch)], ms) := by
      unfold Query.convert
      have : keyItems q.by_ (.scalar (.str (String.ofList (ch :: s)))) = keyItems q.by_ (.tuple [.str (String.singleton ch)]) := by
        rw [hb]
        simp [keyItems, Key.iter]
      dsimp only
      rw [this]
    rw [e, hconv]
    rfl

/-! ### Non-vacuity -/

/-- Group by two columns, count and sum. -/
def demoQuery : Query := ⟨"user", .many ["day", "city"], some "spent", [(.count, none), (.sum, some "total")], some 2, some 3, some 0,
  some 10, none⟩

def demoRow : String → Cell
  | "user" => .num 7
  | "day" => .str "Mon"
  | "city" => .str "Rome"
  | _ => .num 4

example : demoQuery.extract demoRow = (.num 7, .tuple [.str "Mon", .str "Rome"], .num 4) := by decide +kernel

example : demoQuery.run (fun _ => true) .laplace [demoRow] (fun _ rows _ => rows.map fun r => (r.2.1, [("sum", 4), ("count", 1)]))
    = .ok (["day", "city", "count", "total"], [[.key (.scalar (.str "Mon")), .key (.scalar (.str "Rome")), .val 1, .val 4]]) := by
  decide +kernel

/-- The same with a list of one column. -/
example : ({ demoQuery with by_ := .many ["day"] } : Query).run (fun _ => true) .laplace [demoRow]
      (fun _ rows _ => rows.map fun r => (r.2.1, [("sum", 4), ("count", 1)]))
    = .ok (["day", "count", "total"], [[.key (.scalar (.str "M")), .val 1, .val 4]]) := by
  decide +kernel

end PDP.DataFrame
