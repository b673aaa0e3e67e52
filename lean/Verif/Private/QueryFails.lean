import Verif.Private.Query

/-!
# When a DataFrame query fails, and the keys of its result (C88)

Continues `Private/Query`: what `run_query` (`dataframes.py:168-244`) does for arbitrary keys, in particular public keys that have not
the shape of the grouping, and for arbitrary names of output columns.  The model is that of `Private/Query`.
-/

namespace PDP.DataFrame

open PDP.Engine (Params Metric NoiseKind)

/-! ### Specification -/

/-- The parts of a key: the cells of a tuple, the characters of a string; a number has none. -/
def Parts (k : Key) (l : List Cell) : Prop :=
  k = .tuple l ∨ ∃ s : String, k = .scalar (.str s) ∧ l = s.toList.map fun c => .str (String.singleton c)

/-- The key can be written to the columns of the grouping: any key to a single column given by its name, and to a list of columns a key
with at least as many parts. -/
def Fits (y : By) (k : Key) : Prop :=
  match y with
  | .one _ => True
  | .many cs => ∃ l, Parts k l ∧ cs.length ≤ l.length

/-- `out` are the cells of the group-by columns for the key `k`. -/
def Written (y : By) (k : Key) (out : List Out) : Prop :=
  match y with
  | .one _ => out = [.key k]
  | .many cs => ∃ l, Parts k l ∧ cs.length ≤ l.length ∧ out = (l.take cs.length).map fun c => .key (.scalar c)

/-! ### Lemmas -/

theorem parts_iter {k : Key} {l : List Cell} (h : Parts k l) : k.iter = .ok (l.map .scalar) := by
  rcases h with rfl | ⟨s, rfl, rfl⟩
  · rfl
  · simp [Key.iter, Function.comp_def]

theorem parts_or (k : Key) : (∃ l, Parts k l) ∨ k.iter = .error .typeError := by
  rcases k with (s | n) | l
  · exact .inl ⟨_, .inr ⟨s, rfl, rfl⟩⟩
  · exact .inr rfl
  · exact .inl ⟨l, .inl rfl⟩

theorem parts_unique {k : Key} {l l' : List Cell} (h : Parts k l) (h' : Parts k l') : l = l' := by
  have := (parts_iter h).symm.trans (parts_iter h')
  exact List.map_injective_iff.mpr (fun _ _ h => Key.scalar.inj h) (Except.ok.inj this)

theorem zip_take_length {α β : Type} : ∀ (l : List α) (m : List β), l.zip m = l.zip (m.take l.length)
  | [], _ => rfl
  | _ :: _, [] => rfl
  | a :: l, b :: m => by simp [zip_take_length l m]

theorem map_fst_zip_take {α β : Type} : ∀ (l : List α) (m : List β), (l.zip m).map Prod.fst = l.take m.length
  | [], _ => by simp
  | _ :: _, [] => rfl
  | a :: l, b :: m => by simp [map_fst_zip_take l m]

/-- A key that fits is written as its first parts. -/
theorem convert_fits (q : Query) (hf : q.fields.Nodup) (hm : (q.metrics.map fun m => metricName m.1).Nodup)
    (k : Key) (hk : Fits q.by_ k) (ms : List (String × ℚ)) (hms : (ms.map Prod.fst).Perm (q.metrics.map fun m => metricName m.1))
    (value : String → ℚ) (hv : ∀ e ∈ ms, e.2 = value e.1) :
    ∃ out, Written q.by_ k out ∧ q.convert (k, ms) = .ok (out ++ q.metrics.map fun m => .val (value (metricName m.1))) := by
  cases hb : q.by_ with
  | one c =>
    refine ⟨[.key k], rfl, ?_⟩
    rw [convert_ok q hf hm k (by rw [hb]; trivial) ms hms value hv, hb]
    cases k <;> rfl
  | many cs =>
    rw [hb] at hk
    obtain ⟨l, hl, hlen⟩ := hk
    refine ⟨_, ⟨l, hl, hlen, rfl⟩, ?_⟩
    have hconv := convert_ok q hf hm (.tuple (l.take cs.length)) (by rw [hb]; exact ⟨_, rfl, by simpa using hlen⟩) ms hms value hv
    rw [hb] at hconv
    have e : q.convert (k, ms) = q.convert (.tuple (l.take cs.length), ms) := by
      unfold Query.convert
      have : keyItems q.by_ k = keyItems q.by_ (.tuple (l.take cs.length)) := by
        rw [hb]
        simp only [keyItems, parts_iter hl, parts_iter (.inl rfl : Parts (.tuple (l.take cs.length)) _)]
        rw [zip_take_length, List.map_take]
      dsimp only
      rw [this]
    rw [e, hconv]
    rfl

theorem addMetrics_keys (cols : List (String × String)) : ∀ (ms : List (String × ℚ)) (d : List (String × Out)),
    (∀ e ∈ ms, e.1 ∈ cols.map Prod.fst) →
    ∃ d', addMetrics cols d ms = .ok d' ∧ ∀ x ∈ d'.map Prod.fst, x ∈ d.map Prod.fst ∨ x ∈ cols.map Prod.snd := by
  intro ms
  induction ms with
  | nil => exact fun d _ => ⟨d, rfl, fun x hx => .inl hx⟩
  | cons e ms ih =>
    intro d h
    obtain ⟨name, x⟩ := e
    have hmem := h (name, x) (by simp)
    obtain ⟨c, hc⟩ : ∃ c, cols.lookup name = some c := by
      rw [← Option.isSome_iff_exists, List.lookup_isSome_iff]
      obtain ⟨e, he, hee⟩ := List.mem_map.mp hmem
      exact ⟨e, he, by simp [hee]⟩
    have hc' : c ∈ cols.map Prod.snd := by
      clear h hmem ih
      induction cols with
      | nil => simp at hc
      | cons a cols ih =>
        obtain ⟨a1, a2⟩ := a
        rw [List.lookup_cons] at hc
        split at hc
        · simp only [Option.some.injEq] at hc; simp [hc]
        · exact List.mem_cons_of_mem _ (ih hc)
    obtain ⟨d', hd', hk⟩ := ih (setItem d c (.val x)) (fun e he => h e (List.mem_cons_of_mem _ he))
    refine ⟨d', by rw [addMetrics, hc]; exact hd', fun y hy => ?_⟩
    rcases hk y hy with h' | h'
    · unfold setItem at h'
      split at h'
      · rename_i hcd
        left
        obtain ⟨e, he, rfl⟩ := List.mem_map.mp h'
        obtain ⟨e', he', rfl⟩ := List.mem_map.mp he
        split
        · exact hcd
        · exact List.mem_map.mpr ⟨e', he', rfl⟩
      · rw [List.map_append, List.mem_append] at h'
        rcases h' with h' | h'
        · exact .inl h'
        · right
          simp only [List.map_cons, List.map_nil, List.mem_singleton] at h'
          rw [h']; exact hc'
    · exact .inr h'

theorem mapM_missing (d : List (String × Out)) : ∀ (fs : List String) (f : String), f ∈ fs → d.lookup f = none →
    (fs.mapM fun f => match d.lookup f with
      | none => (.error .typeError : Except Err Out)
      | some v => .ok v) = .error .typeError := by
  intro fs
  induction fs with
  | nil => intro f hf; simp at hf
  | cons g fs ih =>
    intro f hf h
    rw [List.mapM_cons]
    rcases hg : d.lookup g with _ | v
    · rfl
    · rcases List.mem_cons.mp hf with rfl | hf
      · rw [h] at hg; exact absurd hg (by simp)
      · rw [ih f hf h]; rfl

theorem keys_of_foldl : ∀ (l : List (String × Key)) (d : List (String × Out)) (x : String),
    x ∈ (l.foldl (fun d e => setItem d e.1 (.key e.2)) d).map Prod.fst → x ∈ d.map Prod.fst ∨ x ∈ l.map Prod.fst := by
  intro l
  induction l with
  | nil => exact fun d x h => .inl h
  | cons e l ih =>
    intro d x h
    rw [List.foldl_cons] at h
    rcases ih _ x h with h | h
    · unfold setItem at h
      split at h
      · rename_i hcd
        left
        obtain ⟨a, ha, rfl⟩ := List.mem_map.mp h
        obtain ⟨e', he', rfl⟩ := List.mem_map.mp ha
        split
        · exact hcd
        · exact List.mem_map.mpr ⟨e', he', rfl⟩
      · rw [List.map_append, List.mem_append] at h
        rcases h with h | h
        · exact .inl h
        · right
          simp only [List.map_cons, List.map_nil, List.mem_singleton] at h
          simp [h]
    · exact .inr (List.mem_cons_of_mem _ h)

/-- A key that does not fit raises. -/
theorem convert_unfit (q : Query) (hf : q.fields.Nodup) (k : Key) (hk : ¬ Fits q.by_ k) (ms : List (String × ℚ))
    (hms : ∀ e ∈ ms, e.1 ∈ q.metrics.map fun m => metricName m.1) : q.convert (k, ms) = .error .typeError := by
  cases hb : q.by_ with
  | one c => rw [hb] at hk; exact absurd trivial hk
  | many cs =>
    rw [hb] at hk
    unfold Query.convert
    dsimp only
    rcases parts_or k with ⟨l, hl⟩ | herr
    · have hlen : l.length < cs.length := by
        by_contra h
        exact hk ⟨l, hl, by omega⟩
      have hkey : keyItems q.by_ k = .ok ((cs.zip (l.map .scalar)).foldl (fun d e => setItem d e.1 (.key e.2)) []) := by
        rw [hb]; simp only [keyItems, parts_iter hl]
      have hcols : ∀ e ∈ ms, e.1 ∈ q.outputColumns.map Prod.fst := fun e he => by
        have := hms e he
        simpa [Query.outputColumns, Function.comp_def] using this
      obtain ⟨d', hd', hkeys⟩ := addMetrics_keys q.outputColumns ms
        ((cs.zip (l.map .scalar)).foldl (fun d e => setItem d e.1 (.key e.2)) []) hcols
      simp only [hkey, bind, Except.bind, hd']
      have hfields : q.fields = cs ++ q.outputColumns.map Prod.snd := by unfold Query.fields; rw [hb]; rfl
      unfold toTuple
      split
      · -- the column after the last part is missing
        refine mapM_missing d' q.fields (cs[l.length]) (by rw [hfields]; simp) ?_
        rw [List.lookup_eq_none_iff]
        intro e he
        have hx := hkeys e.1 (List.mem_map.mpr ⟨e, he, rfl⟩)
        rw [hfields, List.nodup_append] at hf
        by_contra hne
        have heq : cs[l.length] = e.1 := by simpa using hne
        rcases hx with hx | hx
        · rcases keys_of_foldl _ _ _ hx with hx | hx
          · simp at hx
          · have hz : (cs.zip (l.map Key.scalar)).map Prod.fst = cs.take l.length := by
              rw [map_fst_zip_take]; simp
            rw [hz, ← heq, List.mem_take_iff_getElem] at hx
            obtain ⟨i, hi, hie⟩ := hx
            have := (List.Nodup.getElem_inj_iff hf.1).mp hie
            omega
        · exact hf.2.2 _ (List.getElem_mem hlen) _ (heq ▸ hx) rfl
      · rfl
    · have hkey : keyItems q.by_ k = .error .typeError := by rw [hb]; simp only [keyItems, herr]
      simp only [hkey, bind, Except.bind]

theorem fits_or (y : By) (k : Key) : Fits y k ∨ ¬ Fits y k := Classical.em _

/-- All rows of the result, or the error of the keys that do not fit. -/
theorem mapM_convert (q : Query) (hf : q.fields.Nodup) (hm : (q.metrics.map fun m => metricName m.1).Nodup)
    (value : Key × List (String × ℚ) → String → ℚ) : ∀ (res : List (Key × List (String × ℚ))),
    (∀ r ∈ res, (r.2.map Prod.fst).Perm (q.metrics.map fun m => metricName m.1) ∧ ∀ e ∈ r.2, e.2 = value r e.1) →
    ((∀ r ∈ res, Fits q.by_ r.1) ∧ ∃ rows, res.mapM q.convert = .ok rows ∧
        List.Forall₂ (fun r row => ∃ out, Written q.by_ r.1 out ∧ row = out ++ q.metrics.map fun m => .val (value r (metricName m.1)))
          res rows)
      ∨ ((∃ r ∈ res, ¬ Fits q.by_ r.1) ∧ res.mapM q.convert = .error .typeError) := by
  intro res
  induction res with
  | nil => exact fun _ => .inl ⟨by simp, [], rfl, .nil⟩
  | cons r res ih =>
    intro h
    obtain ⟨h1, h2⟩ := h r (by simp)
    rcases fits_or q.by_ r.1 with hr | hr
    · obtain ⟨out, ho, hc⟩ := convert_fits q hf hm r.1 hr r.2 h1 (value r) h2
      rcases ih fun r' hr' => h r' (List.mem_cons_of_mem _ hr') with ⟨hall, rows, hrows, hF⟩ | ⟨⟨r', hr', hn⟩, herr⟩
      · left
        refine ⟨by simpa [hr] using hall, _, ?_, .cons ⟨out, ho, rfl⟩ hF⟩
        rw [List.mapM_cons, hc, hrows]; rfl
      · right
        refine ⟨⟨r', List.mem_cons_of_mem _ hr', hn⟩, ?_⟩
        rw [List.mapM_cons, hc, herr]; rfl
    · right
      refine ⟨⟨r, by simp, hr⟩, ?_⟩
      have hc := convert_unfit q hf r.1 hr r.2 fun e he => h1.mem_iff.mp (List.mem_map.mpr ⟨e, he, rfl⟩)
      rw [List.mapM_cons, hc]; rfl

/-! ### Properties -/

section
variable (q : Query) (ident : String → Bool) (noise : NoiseKind) (df : List (String → Cell))
  (engine : Params → List (Cell × Key × Cell) → Option (List Key) → List (Key × List (String × ℚ)))
  (value : Key × List (String × ℚ) → String → ℚ)

/-- The engine returns for every key one value for each metric of the query, in any order. -/
def Answers : Prop :=
  ∀ r ∈ engine (q.params noise) (df.map q.extract) q.publicKeys,
    (r.2.map Prod.fst).Perm (q.metrics.map fun m => metricName m.1) ∧ ∀ e ∈ r.2, e.2 = value r e.1

/-- **C88.**  When a query returns a DataFrame: exactly if the names of its columns (those of the grouping and those of the aggregations
together) are acceptable and all different, and every released key can be written to the columns of the grouping. -/
theorem C88_query_succeeds_iff (hm : (q.metrics.map fun m => metricName m.1).Nodup) (ha : Answers q noise df engine value) :
    (∃ out, q.run ident noise df engine = .ok out) ↔
      (∀ c ∈ q.by_.columns ++ q.metrics.map (fun m => m.2.getD (metricName m.1)), ident c = true)
      ∧ (q.by_.columns ++ q.metrics.map (fun m => m.2.getD (metricName m.1))).Nodup
      ∧ ∀ r ∈ engine (q.params noise) (df.map q.extract) q.publicKeys, Fits q.by_ r.1 := by
  have hfields : q.fields = q.by_.columns ++ q.metrics.map (fun m => m.2.getD (metricName m.1)) := by
    simp [Query.fields, Query.outputColumns]
  rw [← hfields]
  unfold Query.run
  dsimp only
  by_cases h : q.fields.all ident = true ∧ q.fields.Nodup
  · rw [if_pos h]
    rcases mapM_convert q h.2 hm value _ ha with ⟨hall, rows, hrows, -⟩ | ⟨⟨r, hr, hn⟩, herr⟩
    · rw [hrows]
      exact ⟨fun _ => ⟨List.all_eq_true.mp h.1, h.2, hall⟩, fun _ => ⟨_, rfl⟩⟩
    · rw [herr]
      constructor
      · rintro ⟨out, ho⟩; cases ho
      · rintro ⟨-, -, hall⟩; exact absurd (hall r hr) hn
  · rw [if_neg h]
    constructor
    · rintro ⟨out, ho⟩; cases ho
    · rintro ⟨h1, h2, -⟩; exact absurd ⟨List.all_eq_true.mpr h1, h2⟩ h

/-- **C88.**  The rows of a query that returns a DataFrame: one for every released key in the order of the keys, with the first parts of
the key and then the values of the metrics in the order of the columns. -/
theorem C88_rows (hm : (q.metrics.map fun m => metricName m.1).Nodup) (ha : Answers q noise df engine value)
    {header : List String} {rows : List (List Out)} (h : q.run ident noise df engine = .ok (header, rows)) :
    header = q.by_.columns ++ q.metrics.map (fun m => m.2.getD (metricName m.1))
    ∧ List.Forall₂ (fun r row => ∃ out, Written q.by_ r.1 out ∧ row = out ++ q.metrics.map fun m => .val (value r (metricName m.1)))
        (engine (q.params noise) (df.map q.extract) q.publicKeys) rows := by
  have hfields : q.fields = q.by_.columns ++ q.metrics.map (fun m => m.2.getD (metricName m.1)) := by
    simp [Query.fields, Query.outputColumns]
  unfold Query.run at h
  dsimp only at h
  split at h
  · rename_i hn
    rcases mapM_convert q hn.2 hm value _ ha with ⟨-, rows', hrows, hF⟩ | ⟨-, herr⟩
    · rw [hrows] at h
      cases h
      exact ⟨hfields, hF⟩
    · rw [herr] at h; cases h
  · cases h

/-- **C88.**  Which error a failing query raises: `ValueError` for names, whatever the data and the keys are, and otherwise
`TypeError`. -/
theorem C88_errors (hm : (q.metrics.map fun m => metricName m.1).Nodup) (ha : Answers q noise df engine value) {e : Err}
    (h : q.run ident noise df engine = .error e) :
    (e = .valueError ↔ ¬ ((∀ c ∈ q.by_.columns ++ q.metrics.map (fun m => m.2.getD (metricName m.1)), ident c = true)
      ∧ (q.by_.columns ++ q.metrics.map (fun m => m.2.getD (metricName m.1))).Nodup)) ∧ (e = .valueError ∨ e = .typeError) := by
  have hfields : q.fields = q.by_.columns ++ q.metrics.map (fun m => m.2.getD (metricName m.1)) := by
    simp [Query.fields, Query.outputColumns]
  rw [← hfields]
  unfold Query.run at h
  dsimp only at h
  rw [← List.all_eq_true]
  split at h
  · rename_i hn
    rcases mapM_convert q hn.2 hm value _ ha with ⟨-, rows', hrows, -⟩ | ⟨-, herr⟩
    · rw [hrows] at h; cases h
    · rw [herr] at h; cases h
      exact ⟨⟨(fun h => nomatch h), fun h => absurd hn h⟩, .inr rfl⟩
  · rename_i hn
    cases h
    exact ⟨⟨fun _ => hn, fun _ => rfl⟩, .inl rfl⟩

end

/-- **C88.**  Keys of the shape of the grouping are written so that they can be told apart: different keys have different cells. -/
theorem C88_shaped_keys_stay_apart (y : By) (k k' : Key) (hk : ShapeOk y k) (hk' : ShapeOk y k') {out : List Out}
    (h : Written y k out) (h' : Written y k' out) : k = k' := by
  cases y with
  | one c =>
    have : [Out.key k] = [Out.key k'] := h.symm.trans h'
    simpa using this
  | many cs =>
    obtain ⟨l, rfl, hl⟩ := hk
    obtain ⟨l', rfl, hl'⟩ := hk'
    obtain ⟨m, hm, -, ho⟩ := h
    obtain ⟨m', hm', -, ho'⟩ := h'
    obtain rfl := parts_unique (.inl rfl) hm
    obtain rfl := parts_unique (.inl rfl) hm'
    rw [ho, ← hl, List.take_length, hl, ← hl', List.take_length] at ho'
    rw [List.map_injective_iff.mpr (fun a b h => by simpa using h) ho']

/-- **C88, defect.**  Public keys that are longer than the list of columns are cut without a message: any two keys that agree in the
first parts give rows with the same cells, so that the keys of the output are not the public keys. -/
theorem C88_long_keys_are_merged (cs : List String) (l extra extra' : List Cell) (hl : l.length = cs.length) :
    ∃ out, Written (.many cs) (.tuple (l ++ extra)) out ∧ Written (.many cs) (.tuple (l ++ extra')) out
      ∧ Written (.many cs) (.tuple l) out := by
  refine ⟨l.map fun c => .key (.scalar c), ⟨_, .inl rfl, ?_, ?_⟩, ⟨_, .inl rfl, ?_, ?_⟩, ⟨_, .inl rfl, ?_, ?_⟩⟩ <;> simp [← hl]

/-! ### Non-vacuity -/

/-- An engine that returns the count 1 and the sum 4 for every public key. -/
def demoEngine : Params → List (Cell × Key × Cell) → Option (List Key) → List (Key × List (String × ℚ)) :=
  fun _ _ ks => (ks.getD []).map fun k => (k, [("sum", 4), ("count", 1)])

def demoPublic (ks : List Key) : Query := { demoQuery with publicKeys := some ks }

theorem demo_answers (ks : List Key) :
    Answers (demoPublic ks) .laplace [demoRow] demoEngine (fun _ n => if n = "sum" then 4 else 1) := by
  intro r hr
  simp only [demoEngine, demoPublic, Option.getD_some, List.mem_map] at hr
  obtain ⟨k, -, rfl⟩ := hr
  refine ⟨?_, by dsimp only; decide +kernel⟩
  have : (demoPublic ks).metrics.map (fun m => metricName m.1) = ["count", "sum"] := by
    show demoQuery.metrics.map (fun m => metricName m.1) = _; decide +kernel
  rw [this]; exact List.Perm.swap _ _ _

/-- Two public keys with a part too much: two rows for Monday in Rome. -/
example : (demoPublic [.tuple [.str "Mon", .str "Rome", .num 1], .tuple [.str "Mon", .str "Rome", .num 2]]).run (fun _ => true) .laplace
      [demoRow] demoEngine
    = .ok (["day", "city", "count", "total"], [[.key (.scalar (.str "Mon")), .key (.scalar (.str "Rome")), .val 1, .val 4],
        [.key (.scalar (.str "Mon")), .key (.scalar (.str "Rome")), .val 1, .val 4]]) := by
  decide +kernel

/-- A public key with a part missing: no result. -/
example : ¬ ∃ out, (demoPublic [.tuple [.str "Mon"]]).run (fun _ => true) .laplace [demoRow] demoEngine = .ok out := by
  rw [C88_query_succeeds_iff _ _ _ _ _ _ (by show (demoQuery.metrics.map _).Nodup; decide +kernel) (demo_answers _)]
  rintro ⟨-, -, h⟩
  obtain ⟨l, hl, hlen⟩ := h (.tuple [.str "Mon"], [("sum", 4), ("count", 1)]) (by simp [demoEngine, demoPublic])
  obtain rfl := parts_unique (.inl rfl) hl
  exact absurd hlen (by decide)

/-- Counting the groups of a column called "count" raises. -/
example : ({ demoQuery with by_ := .one "count" } : Query).run (fun _ => true) .laplace [demoRow] demoEngine = .error .valueError := by
  decide +kernel

end PDP.DataFrame
