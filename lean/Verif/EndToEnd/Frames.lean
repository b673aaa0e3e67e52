import Verif.EndToEnd.Groups
import Verif.Private.Query
import Verif.Validation.Props

/-!
# Queries on DataFrames are differentially private (C72)
-/

set_option linter.unusedSectionVars false

namespace PDP.Frames

open PDP PDP.Engine PDP.EndToEnd MeasureTheory
open PDP.Engine.AddNoise (specOf)
open PDP.Approx (Indist)
open PDP.DataFrame (Cell Key Builder calls)

/-! ### Model -/

/-- Why `run_query` fails. -/
inductive Failure where
  | budget (e : Budget.Err)
  | params (e : Engine.Err)
  | engine (e : Engine.Err)
  | release (e : EndToEnd.Err)

/-- A cell as a value of an aggregation; the columns of aggregations have numbers. -/
def numeric : Cell → ℚ
  | .num n => n
  | .str _ => 0

/-- The arguments of `AggregateParams(...)` that are checked (`dataframes.py:187-195`). -/
def raw (q : DataFrame.Query) (noise : NoiseKind) : Validation.Raw :=
  { metrics := some (q.metrics.map Prod.fst), noiseKind := noise, maxPartitions := q.maxPartitions.map fun n => .int n,
    maxPerPartition := q.maxPerPartition.map fun n => .int n, minValue := q.minValue.map .fin, maxValue := q.maxValue.map .fin }

/-- The call on the engine (`dataframes.py:197-206`). -/
def engineCall (q : DataFrame.Query) (noise : NoiseKind) : Call (Cell × Key × Cell) Key :=
  .aggregate (q.params noise) q.publicKeys (fun r => r.2.1) (fun r => numeric r.2.2)

/-- `run_query` (`dataframes.py:168-208`) up to the conversion of the results (`Query.run`): what may be released.  `Budget` checks
the same conditions as the accountant (`dataframes.py:30-36`). -/
noncomputable def runQuery (fmt : ℚ → String) (sigma : ℝ → ℝ → ℝ → ℝ) (env : ℕ → Env Key) (q : DataFrame.Query) (e d : ℚ) (noise : NoiseKind)
    (df : List (String → Cell)) : Except Failure (List (List (Candidate Key))) :=
  match Budget.init e d none none with
  | .error err => .error (.budget err)
  | .ok s0 =>
    match Validation.postInit (raw q noise) with
    | .error err => .error (.params err)
    | .ok () =>
      match planCalls fmt [] [engineCall q noise] with
      | .error err => .error (.engine err)
      | .ok (bs, ops) =>
        match (Budget.step (Budget.run s0 ops).1 .compute).2 with
        | .raised err => .error (.budget err)
        | _ =>
          match evalCalls sigma (specOf (Budget.step (Budget.run s0 ops).1 .compute).1) env (fun r => r.1) (df.map q.extract) 0
              [engineCall q noise] bs with
          | .error err => .error (.release err)
          | .ok out => .ok out

/-! ### Specification -/

/-- Bounds for which the query is shown to be private: at least one group and one contribution per group; ordered caps, different
for `mean`, not both 0 for `sum`. -/
structure Valid (q : DataFrame.Query) : Prop where
  groups : ∀ n, q.maxPartitions = some n → 1 ≤ n
  perGroup : ∀ n, q.maxPerPartition = some n → 1 ≤ n
  caps : ∀ lo hi, q.minValue = some lo → q.maxValue = some hi → lo ≤ hi ∧
    (Metric.mean ∈ q.metrics.map Prod.fst → lo < hi) ∧ (Metric.sum ∈ q.metrics.map Prod.fst → ¬(lo = 0 ∧ hi = 0))

/-- A query that a user can make with `QueryBuilder` on a DataFrame with these columns: calls in any order, also such that raise. -/
def Made (columns : List String) (pc : String) (cs : List DataFrame.Call) (q : DataFrame.Query) : Prop :=
  ∃ b0, Builder.new columns pc = .ok b0 ∧ DataFrame.build (calls b0 cs) = .ok q

/-! ### Lemmas -/

theorem build_privacyColumn {b : Builder} {q : DataFrame.Query} (h : DataFrame.build b = .ok q) : q.privacyColumn = b.privacyColumn := by
  unfold DataFrame.build at h
  split at h
  · cases h
  · split at h
    · cases h
    · split at h
      · cases h
      · split at h
        · cases h
        · split at h
          · cases h
          · cases h; rfl

theorem spec_metric {c : DataFrame.Call} {s : DataFrame.Spec} (h : c.spec? = some s) :
    s.metric = .count ∨ s.metric = .sum ∨ s.metric = .mean := by
  cases c <;> simp [DataFrame.Call.spec?] at h <;> subst h <;> simp

theorem made_spec {columns pc cs q} (h : Made columns pc cs q) :
    q.privacyColumn = pc ∧ (∃ n, q.maxPartitions = some n) ∧ (∃ n, q.maxPerPartition = some n) ∧
      (∀ m ∈ q.metrics.map Prod.fst, m = .count ∨ m = .sum ∨ m = .mean) ∧ q.metrics ≠ [] ∧
      (((∃ m ∈ q.metrics.map Prod.fst, m = .sum ∨ m = .mean) ∧ ∃ lo hi, q.minValue = some lo ∧ q.maxValue = some hi) ∨
        ((∀ m ∈ q.metrics.map Prod.fst, m = .count) ∧ q.minValue = none ∧ q.maxValue = none)) := by
  obtain ⟨b0, h0, hb⟩ := h
  rcases DataFrame.C51_calls b0 columns pc h0 cs with ⟨-, hc, he⟩ | ⟨pre, g, post, y, -, -, -, hcalls⟩
  · rw [hc, he] at hb; cases hb
  · rw [hcalls] at hb
    obtain ⟨-, h2, h3, h4, -, -, -, h8, h9⟩ := DataFrame.C51_query _ q hb
    have hcons := (DataFrame.C51_build_iff _).mp ⟨q, hb⟩
    have hms : q.metrics.map Prod.fst = (post.filterMap DataFrame.Call.spec?).map (fun s => s.metric) := by
      rw [h2]; simp
    have hall : ∀ s ∈ post.filterMap DataFrame.Call.spec?, s.metric = .count ∨ s.metric = .sum ∨ s.metric = .mean := by
      intro s hs
      obtain ⟨c, -, hc⟩ := List.mem_filterMap.mp hs
      exact spec_metric hc
    refine ⟨build_privacyColumn hb, ⟨_, h3⟩, ⟨_, h4⟩, ?_, ?_, ?_⟩
    · rw [hms]
      intro m hm
      obtain ⟨s, hs, rfl⟩ := List.mem_map.mp hm
      exact hall s hs
    · rw [h2]
      intro hn
      exact hcons.2.some_aggregation (List.map_eq_nil_iff.mp hn)
    · rw [hms]
      by_cases hex : ∃ s ∈ post.filterMap DataFrame.Call.spec?, s.metric ≠ .count
      · left
        obtain ⟨s, hs, hne⟩ := hex
        have hsm := (hall s hs).resolve_left hne
        refine ⟨⟨s.metric, List.mem_map.mpr ⟨s, hs, rfl⟩, hsm⟩, ?_⟩
        obtain ⟨-, -, g3, g4⟩ := h8 ⟨s, hs, hne, by rcases hsm with h | h <;> rw [h] <;> simp⟩
        obtain ⟨lo, hlo⟩ := Option.isSome_iff_exists.mp g3
        obtain ⟨hi, hhi⟩ := Option.isSome_iff_exists.mp g4
        exact ⟨lo, hi, hlo, hhi⟩
      · right
        push Not at hex
        refine ⟨?_, h9 fun s hs => .inl (hex s hs)⟩
        intro m hm
        obtain ⟨s, hs, rfl⟩ := List.mem_map.mp hm
        exact hex s hs

theorem supported {columns pc cs q} (h : Made columns pc cs q) (hv : Valid q) (noise : NoiseKind) :
    (engineCall q noise).Supported := by
  obtain ⟨-, ⟨l0, h1⟩, ⟨linf, h2⟩, h3, -, h4⟩ := made_spec h
  have hms : (q.params noise).metrics = q.metrics.map Prod.fst := rfl
  have hcaps : ∀ m, m = Metric.sum ∨ m = Metric.mean → m ∈ q.metrics.map Prod.fst → ∃ lo hi, q.minValue = some lo ∧ q.maxValue = some hi := by
    intro m hm hmem
    rcases h4 with ⟨-, h⟩ | ⟨h, -⟩
    · exact h
    · rw [h m hmem] at hm; simp at hm
  have hvar : Metric.variance ∉ q.metrics.map Prod.fst := fun hm => by
    have := h3 _ hm; simp at this
  have hid : Metric.privacyIdCount ∉ q.metrics.map Prod.fst := fun hm => by
    have := h3 _ hm; simp at this
  refine ⟨.inr ⟨l0, linf, hv.groups l0 h1, hv.perGroup linf h2, rfl, h1, h2⟩, zero_lt_one, ?_, fun hm => absurd hm hid, ?_, ?_,
    fun hm => absurd hm hvar, fun hp => by simp [DataFrame.Query.params] at hp, fun _ => ⟨rfl, fun _ => rfl⟩⟩
  · intro m hm
    rcases h3 m hm with h | h | h <;> simp [h]
  · intro hm _ _
    obtain ⟨lo, hi, hlo, hhi⟩ := hcaps _ (.inl rfl) hm
    obtain ⟨g1, -, g3⟩ := hv.caps lo hi hlo hhi
    exact .inl ⟨lo, hi, hlo, hhi, g1, g3 hm, rfl⟩
  · intro hm _
    obtain ⟨lo, hi, hlo, hhi⟩ := hcaps _ (.inr rfl) hm
    exact ⟨lo, hi, hlo, hhi, (hv.caps lo hi hlo hhi).2.1 hm⟩

theorem accepted {columns pc cs q} (h : Made columns pc cs q) (hv : Valid q) (noise : NoiseKind) :
    Validation.postInit (raw q noise) = .ok () := by
  obtain ⟨-, ⟨l0, h1⟩, ⟨linf, h2⟩, h3, hne, h4⟩ := made_spec h
  have g1 := hv.groups l0 h1
  have g2 := hv.perGroup linf h2
  rw [Validation.C26_accepted_iff_documented]
  refine ⟨?_, .inl ⟨rfl, rfl⟩, .inr rfl, ?_, fun _ _ _ hn => absurd rfl hn, ?_, fun _ _ he => by simp [raw] at he,
    fun hc => by simp [raw] at hc, .inr ⟨rfl, ⟨l0, by simp [raw, h1], by omega⟩, ⟨linf, by simp [raw, h2], by omega⟩⟩, .inl rfl⟩
  · rcases h4 with ⟨-, lo, hi, hlo, hhi⟩ | ⟨-, hlo, hhi⟩
    · exact .inr ⟨lo, hi, by simp [raw, hlo], by simp [raw, hhi], (hv.caps lo hi hlo hhi).1⟩
    · exact .inl ⟨by simp [raw, hlo], by simp [raw, hhi]⟩
  · intro ms hms hvec
    have : ms = q.metrics.map Prod.fst := by simpa [raw, eq_comm] using hms
    rw [this] at hvec
    have := h3 _ hvec; simp at this
  · intro ms hms _ _ hmin m hm
    have : ms = q.metrics.map Prod.fst := by simpa [raw, eq_comm] using hms
    rw [this] at hm
    rcases h4 with ⟨-, lo, hi, hlo, hhi⟩ | ⟨hc, -⟩
    · simp [raw, hlo] at hmin
    · exact .inr (hc m hm)

theorem promised (q : DataFrame.Query) (noise : NoiseKind) (data : List (Cell × Key × Cell)) (u : Cell) :
    (engineCall q noise).Promised (fun r => r.1) data u :=
  ⟨⟨fun h => by simp [DataFrame.Query.params] at h, fun h => by simp [DataFrame.Query.params] at h⟩,
    fun h => by simp [DataFrame.Query.params] at h⟩

theorem init_none {e d : ℚ} (he : 0 < e) (hd : 0 ≤ d) (hd1 : d < 1) : ∃ s0, Budget.init e d none none = .ok s0 := by
  simp [Budget.init, not_le.mpr he, not_lt.mpr hd, not_le.mpr hd1]

theorem extract_without (q : DataFrame.Query) (u : Cell) (df : List (String → Cell)) :
    (df.filter fun row => row q.privacyColumn ≠ u).map q.extract = removeId (fun r => r.1) u (df.map q.extract) := by
  unfold removeId
  rw [List.filter_map]
  refine congrArg (List.map _) (List.filter_congr fun row _ => ?_)
  rw [Function.comp_apply, DataFrame.C51_extract]

/-- C72 for fixed random choices. -/
theorem query_indist (fmt : ℚ → String) (lib : Library) (hlib : lib.Contract) {columns pc cs q} (hq : Made columns pc cs q)
    (hv : Valid q) (noise : NoiseKind) {e d : ℚ} (he : 0 < e) (hd0 : 0 ≤ d) (hd1 : d < 1)
    (hd : noise = .gaussian ∨ q.publicKeys = none → 0 < d) (env : ℕ → Env Key) (henv : ∀ j, (env j).Lawful)
    (df : List (String → Cell)) (u : Cell) :
    ∃ L L', runQuery fmt lib.sigma env q e d noise df = .ok L ∧
      runQuery fmt lib.sigma env q e d noise (df.filter fun row => row pc ≠ u) = .ok L' ∧
      ∀ (U : Finset (ℕ × Key)) (S : Finset (ℕ × ℕ)),
        IsProbabilityMeasure (observedLaw lib U S L) ∧ IsProbabilityMeasure (observedLaw lib U S L') ∧
        Indist e d (observedLaw lib U S L) (observedLaw lib U S L') ∧
        Indist e d (observedLaw lib U S L') (observedLaw lib U S L) := by
  obtain ⟨s0, h0⟩ := init_none he hd0 hd1
  have hs : ∀ c ∈ [engineCall q noise], c.Supported := by
    intro c hc
    rw [List.mem_singleton.mp hc]
    exact supported hq hv noise
  have hdel : (∃ c ∈ [engineCall q noise], c.NeedsDelta) → 0 < d := by
    rintro ⟨c, hc, hn⟩
    rw [List.mem_singleton.mp hc] at hn
    exact hd hn
  obtain ⟨bs, ops, hp, -, hc⟩ := C62_supported_pipeline_runs fmt _ hs h0 hdel ⟨by simp, by simp⟩
  obtain ⟨L, L', h1, h2, h3⟩ := pipeline_indist fmt lib hlib h0 _ hs hdel hp hc env henv (fun r => r.1) (df.map q.extract) u
    (fun c hcm => by rw [List.mem_singleton.mp hcm]; exact promised q noise _ u)
  have hrun : ∀ df' out, evalCalls lib.sigma (specOf (Budget.step (Budget.run s0 ops).1 .compute).1) env (fun r => r.1)
      (df'.map q.extract) 0 [engineCall q noise] bs = .ok out → runQuery fmt lib.sigma env q e d noise df' = .ok out := by
    intro df' out h
    unfold runQuery
    simp only [h0, accepted hq hv noise, hp, hc, h]
  refine ⟨L, L', hrun df L h1, hrun _ L' ?_, h3⟩
  rw [← (made_spec hq).1, extract_without]
  exact h2

theorem planCalls_length {R K : Type} {fmt : ℚ → String} : ∀ {cs : List (EndToEnd.Call R K)} {rs bs ops},
    planCalls fmt rs cs = .ok (bs, ops) → bs.length = cs.length
  | [], rs, bs, ops, h => by cases h; rfl
  | c :: cs, rs, bs, ops, h => by
    unfold planCalls at h
    split at h
    · cases h
    · split at h
      · cases h
      · rename_i hr
        cases h
        simp [planCalls_length hr]

/-- The steps of a query that succeeds. -/
theorem run_steps {fmt sigma env q e d noise df L} (h : runQuery fmt sigma env q e d noise df = .ok L) :
    ∃ s0 bs ops, Budget.init e d none none = .ok s0 ∧ planCalls fmt [] [engineCall q noise] = .ok (bs, ops) ∧
      (∀ err, (Budget.step (Budget.run s0 ops).1 .compute).2 ≠ .raised err) ∧
      evalCalls sigma (specOf (Budget.step (Budget.run s0 ops).1 .compute).1) env (fun r => r.1) (df.map q.extract) 0
        [engineCall q noise] bs = .ok L := by
  unfold runQuery at h
  split at h
  · cases h
  · rename_i s0 h0
    split at h
    · cases h
    · split at h
      · cases h
      · rename_i bs ops h2
        split at h
        · cases h
        · rename_i h3
          split at h
          · cases h
          · rename_i out h4
            cases h
            exact ⟨s0, bs, ops, h0, h2, h3, h4⟩

/-! ### Properties -/

/-- **C72.**  A query made with `QueryBuilder` and run with the budget `(e, d)` succeeds and is `(e, d)`-differentially private: the
results on the DataFrame and on the DataFrame without the rows whose privacy column has the cell `u` are indistinguishable.  The
data is arbitrary, the random samples of the backend are too. -/
theorem C72_query_is_differentially_private (fmt : ℚ → String) (lib : Library) (hlib : lib.Contract) {columns pc cs q}
    (hq : Made columns pc cs q) (hv : Valid q) (noise : NoiseKind) {e d : ℚ} (he : 0 < e) (hd0 : 0 ≤ d) (hd1 : d < 1)
    (hd : noise = .gaussian ∨ q.publicKeys = none → 0 < d)
    {Ω : Type} [MeasurableSpace Ω] (μ : Measure Ω) [IsProbabilityMeasure μ] (env : Ω → ℕ → Env Key)
    (henv : ∀ ω j, (env ω j).Lawful) (df : List (String → Cell)) (u : Cell) :
    ∃ L L' : Ω → List (List (Candidate Key)),
      (∀ ω, runQuery fmt lib.sigma (env ω) q e d noise df = .ok (L ω) ∧
        runQuery fmt lib.sigma (env ω) q e d noise (df.filter fun row => row pc ≠ u) = .ok (L' ω)) ∧
      ∀ (U : Finset (ℕ × Key)) (S : Finset (ℕ × ℕ)),
        (∀ ω, IsProbabilityMeasure (observedLaw lib U S (L ω)) ∧ IsProbabilityMeasure (observedLaw lib U S (L' ω))) ∧
        ∀ A, MeasurableSet A →
          ∫⁻ ω, observedLaw lib U S (L ω) A ∂μ
            ≤ ENNReal.ofReal (Real.exp e) * ∫⁻ ω, observedLaw lib U S (L' ω) A ∂μ + ENNReal.ofReal d ∧
          ∫⁻ ω, observedLaw lib U S (L' ω) A ∂μ
            ≤ ENNReal.ofReal (Real.exp e) * ∫⁻ ω, observedLaw lib U S (L ω) A ∂μ + ENNReal.ofReal d := by
  have key := fun ω => query_indist fmt lib hlib hq hv noise he hd0 hd1 hd (env ω) (henv ω) df u
  choose L L' a1 a2 a3 using key
  refine ⟨L, L', fun ω => ⟨a1 ω, a2 ω⟩, fun U S => ⟨fun ω => ⟨(a3 ω U S).1, (a3 ω U S).2.1⟩, fun A hA => ⟨?_, ?_⟩⟩⟩
  · exact lintegral_indist μ fun ω => (a3 ω U S).2.2.1 A hA
  · exact lintegral_indist μ fun ω => (a3 ω U S).2.2.2 A hA

/-- **C72** (several queries).  Queries on one DataFrame with the same privacy column and the budgets `(eᵢ, dᵢ)`: their results
together are private with the sums of the `eᵢ` and of the `dᵢ`. -/
theorem C72_several_queries (fmt : ℚ → String) (lib : Library) (hlib : lib.Contract) {n : ℕ} {columns pc}
    (cs : Fin n → List DataFrame.Call) (q : Fin n → DataFrame.Query) (hq : ∀ i, Made columns pc (cs i) (q i)) (hv : ∀ i, Valid (q i))
    (noise : Fin n → NoiseKind) (e d : Fin n → ℚ) (he : ∀ i, 0 < e i) (hd0 : ∀ i, 0 ≤ d i) (hd1 : ∀ i, d i < 1)
    (hd : ∀ i, noise i = .gaussian ∨ (q i).publicKeys = none → 0 < d i)
    {Ω : Type} [MeasurableSpace Ω] (μ : Measure Ω) [IsProbabilityMeasure μ] (env : Ω → Fin n → ℕ → Env Key)
    (henv : ∀ ω i j, (env ω i j).Lawful) (df : List (String → Cell)) (u : Cell) :
    ∃ L L' : Ω → Fin n → List (List (Candidate Key)),
      (∀ ω i, runQuery fmt lib.sigma (env ω i) (q i) (e i) (d i) (noise i) df = .ok (L ω i) ∧
        runQuery fmt lib.sigma (env ω i) (q i) (e i) (d i) (noise i) (df.filter fun row => row pc ≠ u) = .ok (L' ω i)) ∧
      ∀ (U : Fin n → Finset (ℕ × Key)) (S : Fin n → Finset (ℕ × ℕ)), ∀ A, MeasurableSet A →
        ∫⁻ ω, Measure.pi (fun i => observedLaw lib (U i) (S i) (L ω i)) A ∂μ
          ≤ ENNReal.ofReal (Real.exp (∑ i, e i : ℚ)) * ∫⁻ ω, Measure.pi (fun i => observedLaw lib (U i) (S i) (L' ω i)) A ∂μ
            + ENNReal.ofReal (∑ i, d i : ℚ) ∧
        ∫⁻ ω, Measure.pi (fun i => observedLaw lib (U i) (S i) (L' ω i)) A ∂μ
          ≤ ENNReal.ofReal (Real.exp (∑ i, e i : ℚ)) * ∫⁻ ω, Measure.pi (fun i => observedLaw lib (U i) (S i) (L ω i)) A ∂μ
            + ENNReal.ofReal (∑ i, d i : ℚ) := by
  have key := fun ω i => query_indist fmt lib hlib (hq i) (hv i) (noise i) (he i) (hd0 i) (hd1 i) (hd i) (env ω i) (henv ω i) df u
  choose L L' a1 a2 a3 using key
  have hdn : ∀ i, (0 : ℝ) ≤ d i := fun i => by exact_mod_cast hd0 i
  refine ⟨L, L', fun ω i => ⟨a1 ω i, a2 ω i⟩, fun U S A hA => ?_⟩
  push_cast
  constructor
  · refine lintegral_indist μ fun ω => ?_
    have (i : Fin n) : IsProbabilityMeasure (observedLaw lib (U i) (S i) (L ω i)) := (a3 ω i (U i) (S i)).1
    have (i : Fin n) : IsProbabilityMeasure (observedLaw lib (U i) (S i) (L' ω i)) := (a3 ω i (U i) (S i)).2.1
    exact Indist.pi (fun i => (e i : ℝ)) (fun i => (d i : ℝ)) _ _ hdn (fun i => (a3 ω i (U i) (S i)).2.2.1) A hA
  · refine lintegral_indist μ fun ω => ?_
    have (i : Fin n) : IsProbabilityMeasure (observedLaw lib (U i) (S i) (L ω i)) := (a3 ω i (U i) (S i)).1
    have (i : Fin n) : IsProbabilityMeasure (observedLaw lib (U i) (S i) (L' ω i)) := (a3 ω i (U i) (S i)).2.1
    exact Indist.pi (fun i => (e i : ℝ)) (fun i => (d i : ℝ)) _ _ hdn (fun i => (a3 ω i (U i) (S i)).2.2.2) A hA

/-- **C72** (bad arguments).  A query with a bound of 0, with caps in the wrong order, or with an impossible budget releases
nothing: `run_query` raises before the data is read. -/
theorem C72_bad_arguments (fmt : ℚ → String) (sigma : ℝ → ℝ → ℝ → ℝ) (env : ℕ → Env Key) {columns pc cs q}
    (hq : Made columns pc cs q) (noise : NoiseKind) (e d : ℚ)
    (h : e ≤ 0 ∨ d < 0 ∨ 1 ≤ d ∨ q.maxPartitions = some 0 ∨ q.maxPerPartition = some 0 ∨
      ∃ lo hi, q.minValue = some lo ∧ q.maxValue = some hi ∧ hi < lo) :
    ∃ f, (∀ err, f ≠ .release err) ∧ ∀ df, runQuery fmt sigma env q e d noise df = .error f := by
  obtain ⟨-, ⟨l0, h1⟩, ⟨linf, h2⟩, h3, hne, h4⟩ := made_spec hq
  by_cases hb : e ≤ 0 ∨ d < 0 ∨ 1 ≤ d
  · refine ⟨.budget .invalidArgument, by simp, fun df => ?_⟩
    have : Budget.init e d none none = .error .invalidArgument := by
      unfold Budget.init
      by_cases he : e ≤ 0
      · rw [if_pos he]
      · rw [if_neg he, if_pos (hb.resolve_left he)]
    simp only [runQuery, this]
  · push Not at hb
    obtain ⟨s0, h0⟩ := init_none hb.1 hb.2.1 hb.2.2
    have hbad : ∃ err, Validation.postInit (raw q noise) = .error err := by
      rcases hpi : Validation.postInit (raw q noise) with err | ⟨⟩
      · exact ⟨err, rfl⟩
      · exfalso
        have hdoc := (Validation.C26_accepted_iff_documented _).mp hpi
        rcases h with h | h | h | h | h | ⟨lo, hi, hlo, hhi, hlt⟩
        · exact absurd h (not_le.mpr hb.1)
        · exact absurd h (not_lt.mpr hb.2.1)
        · exact absurd h (not_le.mpr hb.2.2)
        · rcases hdoc.bounds with ⟨⟨z, hz, -⟩, -⟩ | ⟨-, ⟨z, hz, hpos⟩, -⟩
          · simp [raw] at hz
          · have : (0 : ℤ) = z := by simpa [raw, h] using hz
            omega
        · rcases hdoc.bounds with ⟨⟨z, hz, -⟩, -⟩ | ⟨-, -, ⟨z, hz, hpos⟩⟩
          · simp [raw] at hz
          · have : (0 : ℤ) = z := by simpa [raw, h] using hz
            omega
        · rcases hdoc.values with ⟨hn, -⟩ | ⟨a, b, ha, hb', hab⟩
          · simp [raw, hlo] at hn
          · simp only [raw, hlo, hhi, Option.map_some, Option.some.injEq, Validation.Num.fin.injEq] at ha hb'
            subst ha; subst hb'
            exact absurd hab (not_le.mpr hlt)
    obtain ⟨err, herr⟩ := hbad
    exact ⟨.params err, by simp, fun df => by simp only [runQuery, h0, herr]⟩

/-- **C72** (what is computed).  What a query releases is what the engine's aggregation of the metrics of the query, with the requested
noise, the bounds of `groupby`, the caps and the public keys, releases with the budget `(e, d)` on one row for each row of the
DataFrame: its cell in the privacy column, its group, and the number in the input column, 0 if there is none. -/
theorem C72_what_is_computed (fmt : ℚ → String) (sigma : ℝ → ℝ → ℝ → ℝ) (env : ℕ → Env Key) {columns pc cs q}
    (hq : Made columns pc cs q) (noise : NoiseKind) (e d : ℚ) (df : List (String → Cell)) {L}
    (h : runQuery fmt sigma env q e d noise df = .ok L) :
    let p : Params := { metrics := q.metrics.map Prod.fst, noiseKind := noise, maxPartitions := q.maxPartitions,
                        maxPerPartition := q.maxPerPartition, minValue := q.minValue, maxValue := q.maxValue }
    let rows := df.map fun row => (row pc,
      (if q.by_.columns.length = 1 then Key.scalar (row (q.by_.columns.headD "")) else Key.tuple (q.by_.columns.map row)),
      (match q.input with | none => 0 | some c => match row c with | .num x => (x : ℚ) | .str _ => 0))
    ∃ s0 b ops, Budget.init e d none none = .ok s0 ∧
      planCalls fmt [] [.aggregate (R := Cell × Key × ℚ) p q.publicKeys (fun r => r.2.1) (fun r => r.2.2)] = .ok ([b], ops) ∧
      (∀ err, (Budget.step (Budget.run s0 ops).1 .compute).2 ≠ .raised err) ∧
      ∃ out, L = [out] ∧
        evalCall sigma (specOf (Budget.step (Budget.run s0 ops).1 .compute).1) (env 0) (fun r => r.1) b rows
          (.aggregate p q.publicKeys (fun r => r.2.1) (fun r => r.2.2)) = .ok out := by
  intro p rows
  have hpc := (made_spec hq).1
  obtain ⟨s0, bs, ops, h0, h2, h3, h4⟩ := run_steps h
  have hplan : planCalls fmt [] [.aggregate (R := Cell × Key × ℚ) p q.publicKeys (fun r => r.2.1) (fun r => r.2.2)] = .ok (bs, ops) := by
    rw [← h2]; rfl
  have hone : ∃ b, bs = [b] := by
    have : bs.length = 1 := planCalls_length h2
    exact List.length_eq_one_iff.mp this
  obtain ⟨b, rfl⟩ := hone
  refine ⟨s0, b, ops, h0, hplan, h3, ?_⟩
  unfold evalCalls at h4
  split at h4
  · cases h4
  · rename_i out hout
    refine ⟨out, (Except.ok.inj h4).symm, ?_⟩
    rw [← hout]
    simp only [evalCall, engineCall]
    have hrows : extract (fun r => r.1) (fun r => r.2.1) (fun r => r.2.2) rows
        = extract (fun r => r.1) (fun r => r.2.1) (fun r => numeric r.2.2) (df.map q.extract) := by
      simp only [extract, rows, List.map_map]
      refine List.map_congr_left fun row _ => ?_
      simp only [Function.comp_apply, DataFrame.C51_extract, hpc]
      rcases q.input with _ | c
      · rfl
      · simp only [numeric]
    rw [hrows]
    rfl

/-- **C72** (nothing is left out).  For every query and DataFrame there are finite sets `U` of groups and `S` of labels such that on the
DataFrame and on any part of it, with any budget and however the computation is executed, every group that may be released is in `U`,
every number in it has its label in `S`, and `observedLaw` takes its decision and its numbers with the distributions with which
they are released. -/
theorem C72_everything_is_observed (fmt : ℚ → String) (lib : Library) {columns pc cs q} (hq : Made columns pc cs q) (hv : Valid q)
    (noise : NoiseKind) (df : List (String → Cell)) :
    ∃ (U : Finset (ℕ × Key)) (S : Finset (ℕ × ℕ)), ∀ (e d : ℚ) (env : ℕ → Env Key), (∀ j, (env j).Lawful) →
      ∀ df' : List (String → Cell), (∀ row ∈ df', row ∈ df) → ∀ L, runQuery fmt lib.sigma env q e d noise df' = .ok L →
      ∀ j, ∀ c ∈ L.getD j [], (j, c.key) ∈ U ∧ decisionLaw lib (L.getD j []) c.key = c.gate.law lib ∧
        ∀ n ∈ c.numbers, (n.spec, n.comp) ∈ S ∧ numberLaw (L.getD j []) c.key (n.spec, n.comp) = n.law := by
  have hs : ∀ c ∈ [engineCall q noise], c.Supported := by
    intro c hc
    rw [List.mem_singleton.mp hc]
    exact supported hq hv noise
  rcases hp : planCalls fmt [] [engineCall q noise] with err | ⟨bs, ops⟩
  · refine ⟨∅, ∅, fun e d env _ df' _ L hL => ?_⟩
    obtain ⟨_, _, _, -, h2, -⟩ := run_steps hL
    rw [hp] at h2; cases h2
  · obtain ⟨U, S, h⟩ := C62_everything_is_observed fmt lib (fun r : Cell × Key × Cell => r.1) (df.map q.extract) _ hs hp
    refine ⟨U, S, fun e d env henv df' hdf L hL => ?_⟩
    obtain ⟨s0, bs', ops', -, h2, -, h4⟩ := run_steps hL
    rw [hp] at h2
    cases h2
    refine h _ env henv _ ?_ L h4
    intro r hr
    obtain ⟨row, hrow, rfl⟩ := List.mem_map.mp hr
    exact List.mem_map_of_mem (hdf row hrow)

/-! ### Example -/

/-- The query of the documentation: number of visits, money spent and its mean, per day. -/
def exampleColumns : List String := ["user_id", "day", "spent_money"]

def exampleQueryCalls : List DataFrame.Call :=
  [.groupby ⟨.str "day", 3, 1, none, none⟩, .count none, .sum "spent_money" (some 0) (some 100) none,
    .mean "spent_money" none none (some "avg")]

def exampleQuery : DataFrame.Query :=
  ⟨"user_id", .one "day", some "spent_money", [(.count, none), (.sum, none), (.mean, some "avg")], some 3, some 1, some 0, some 100, none⟩

theorem exampleQuery_made : Made exampleColumns "user_id" exampleQueryCalls exampleQuery := ⟨_, rfl, rfl⟩

theorem exampleQuery_valid : Valid exampleQuery := by
  refine ⟨?_, ?_, ?_⟩
  · intro n h; cases h; norm_num
  · intro n h; cases h; norm_num
  · intro lo hi h h'; cases h; cases h'; norm_num

def keyEnv : Env Key := ⟨localBackend firstRng, fun merge => localCombine merge⟩

theorem keyEnv_lawful : keyEnv.Lawful :=
  ⟨C39_local_backend_lawful _, localBackend_keyLocal _, fun merge => localCombine_lawful merge⟩

/-- Private days, budget (1, 1/1000), for every DataFrame and user. -/
example (fmt : ℚ → String) (df : List (String → Cell)) (u : Cell) :
    ∃ L L', runQuery fmt exampleLibrary.sigma (fun _ => keyEnv) exampleQuery 1 (1 / 1000) .laplace df = .ok L ∧
      runQuery fmt exampleLibrary.sigma (fun _ => keyEnv) exampleQuery 1 (1 / 1000) .laplace
        (df.filter fun row => row "user_id" ≠ u) = .ok L' ∧
      ∀ (U : Finset (ℕ × Key)) (S : Finset (ℕ × ℕ)), ∀ A, MeasurableSet A →
        observedLaw exampleLibrary U S L A
          ≤ ENNReal.ofReal (Real.exp 1) * observedLaw exampleLibrary U S L' A + ENNReal.ofReal (1 / 1000) := by
  obtain ⟨L, L', h1, h2, h3⟩ := query_indist fmt exampleLibrary exampleLibrary_contract exampleQuery_made exampleQuery_valid .laplace
    (e := 1) (d := 1 / 1000) (by norm_num) (by norm_num) (by norm_num) (fun _ => by norm_num) (fun _ => keyEnv)
    (fun _ => keyEnv_lawful) df u
  refine ⟨L, L', h1, h2, fun U S A hA => ?_⟩
  have := (h3 U S).2.2.1 A hA
  simpa using this

end PDP.Frames
