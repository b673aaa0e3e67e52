import Verif.Analysis.PerformDocumented

/-!
# Property C65: what the utility analysis does not analyse

Options which `aggregate()` accepts, or which nothing rejects, and for which the analysis fails or describes other noise.
-/

set_option linter.unusedVariables false
set_option linter.unusedSectionVars false

namespace PDP.Analysis

open PDP
open PDP.Engine (NoiseKind Strategy natArg MergeTree LawfulCombine usersIn relevant)
open PDP.EndToEnd (Env toMechType)
open PDP.Analysis.Config (Multi allParams given)

variable {P K : Type} [DecidableEq P] [DecidableEq K]

/-! ### Lemmas: the parts of an analysis that succeeds -/

theorem bind_ok {E A B : Type} {x : Except E A} {f : A → Except E B} {b : B} (h : x.bind f = .ok b) :
    ∃ a, x = .ok a ∧ f a = .ok b := by
  cases x with
  | error e => cases h
  | ok a => exact ⟨a, rfl, h⟩

theorem failing_ok {E A : Type} {f : E → Fail} {x : Except E A} {a : A} (h : failing f x = .ok a) : x = .ok a := by
  cases x with
  | error e => cases h
  | ok a' => cases h; rfl

theorem requestAll_kinds : ∀ (l : List (Kind × Engine.Params)) (s : Budget.State) {s' l'}, requestAll s l = .ok (s', l') →
    l'.map (fun x => (x.1, x.2.1)) = l
  | [], s, s', l', h => by cases h; rfl
  | (k, p) :: l, s, s', l', h => by
    unfold requestAll at h
    split at h
    · cases h
    · split at h
      · cases h
      · rename_i hr
        cases h
        rw [List.map_cons, requestAll_kinds l _ hr]

theorem createConfiguration_kinds {s : Budget.State} {l : List (Kind × Engine.Params)} {cs : List Created}
    (h : createConfiguration s l = .ok cs) : cs.map (fun x => (x.kind, x.params)) = l := by
  unfold createConfiguration at h
  split at h
  · cases h
  · split at h
    · cases h
    · rename_i hr _ _ _ _
      cases h
      rw [List.map_map]
      exact requestAll_kinds _ _ hr

theorem perform_parts {env : Env K} {O : Ops} {sigma : ℝ → ℝ → ℝ → ℝ} {keepOf : SelectionArgs → ℕ → ℚ}
    {approx : Moments → ℕ × List ℚ} {keep : K → Bool} {e d : ℚ} {p : Engine.Params} {c : Option (Multi NoiseKind Strategy)}
    {pub : Option (List K)} {input : Input P K} {r}
    (h : performUtilityAnalysis env O sigma keepOf approx keep e d p c pub input = .ok r) :
    ∃ s created combs n packed ss,
      Budget.init e d none none = .ok s ∧ checkOptions p = .ok () ∧ createCombiners s pub.isSome p c = .ok created ∧
      (created.flatten.mapM fun x => x.comb keepOf) = .ok combs ∧ nConfigurations c = .ok n ∧
      packAll sigma created.flatten n (analyze env.backend (env.combine (mergeStates (Comb.raw :: combs))) approx
        (Comb.raw :: combs) keep p pub input) = .ok packed ∧
      reportStrategies pub.isSome p c = .ok ss ∧
      ((Reports.reports O (fun m => crossCreate pub.isSome equalWeight (crossInput m)) crossMerge crossMetrics packed).mapM
        (addStrategy pub.isSome ss)) = .ok r.1 := by
  unfold performUtilityAnalysis at h
  obtain ⟨s, h1, h⟩ := bind_ok h
  obtain ⟨_, h2, h⟩ := bind_ok h
  obtain ⟨created, h3, h⟩ := bind_ok h
  obtain ⟨combs, h4, h⟩ := bind_ok h
  obtain ⟨n, h5, h⟩ := bind_ok h
  obtain ⟨packed, h6, h⟩ := bind_ok h
  obtain ⟨ss, h7, h⟩ := bind_ok h
  obtain ⟨rs, h8, h⟩ := bind_ok h
  cases h
  exact ⟨s, created, combs, n, packed, ss, failing_ok h1, h2, h3, h4, h5, h6, h7, h8⟩

/-- If the analysis succeeds then every combiner which is asked for can be created. -/
theorem perform_combs {env : Env K} {O : Ops} {sigma : ℝ → ℝ → ℝ → ℝ} {keepOf : SelectionArgs → ℕ → ℚ}
    {approx : Moments → ℕ × List ℚ} {keep : K → Bool} {e d : ℚ} {p : Engine.Params} {c : Option (Multi NoiseKind Strategy)}
    {pub : Option (List K)} {input : Input P K} {r}
    (h : performUtilityAnalysis env O sigma keepOf approx keep e d p c pub input = .ok r) :
    ∃ l, allParams (blueprint p) c = .ok l ∧ ∀ x ∈ l, ∀ a ∈ asked pub.isSome p.metrics (ofConfig x.1) x.2,
      ∃ spec cb, (⟨a.1, a.2, spec⟩ : Created).comb keepOf = .ok cb := by
  obtain ⟨s, created, combs, n, packed, ss, -, -, h3, h4, -⟩ := perform_parts h
  unfold createCombiners at h3
  split at h3
  · cases h3
  · rename_i l hl
    refine ⟨l, hl, fun x hx a ha => ?_⟩
    have h5 := EndToEnd.mapM_inv h3
    obtain ⟨cs, hcs, hx'⟩ : ∃ cs ∈ created, createConfiguration s (asked pub.isSome p.metrics (ofConfig x.1) x.2) = .ok cs := by
      obtain ⟨i, hi, rfl⟩ := List.getElem_of_mem hx
      have hlen := h5.length_eq
      exact ⟨created[i], List.getElem_mem _, h5.get hi (hlen ▸ hi)⟩
    have hk := createConfiguration_kinds hx'
    rw [← hk] at ha
    obtain ⟨y, hy, rfl⟩ := List.mem_map.mp ha
    have h6 := EndToEnd.mapM_inv h4
    obtain ⟨i, hi, hiy⟩ := List.getElem_of_mem (List.mem_flatten.mpr ⟨cs, hcs, hy⟩)
    have := h6.get hi (h6.length_eq ▸ hi)
    exact ⟨y.spec, _, by rw [List.get_eq_getElem, hiy] at this; exact this⟩

/-! ### The theorems -/

/-- **C65** (rejected options).  Other metrics than COUNT, SUM and PRIVACY_ID_COUNT, enforced contribution bounds and
post-aggregation thresholding are rejected with `NotImplementedError`, whatever the data and the configurations. -/
theorem C65_rejected (env : Env K) (O : Ops) (sigma : ℝ → ℝ → ℝ → ℝ) (keepOf : SelectionArgs → ℕ → ℚ)
    (approx : Moments → ℕ × List ℚ) (keep : K → Bool) {e d : ℚ} {s0} (h0 : Budget.init e d none none = .ok s0) (p : Engine.Params)
    (c : Option (Multi NoiseKind Strategy)) (pub : Option (List K)) (input : Input P K)
    (h : (∃ m ∈ p.metrics, m ≠ .count ∧ m ≠ .sum ∧ m ≠ .privacyIdCount) ∨ p.boundsEnforced = true ∨ p.postThresholding = true) :
    performUtilityAnalysis env O sigma keepOf approx keep e d p c pub input = .error .notImplemented := by
  have hc : checkOptions p = .error .notImplemented := by
    unfold checkOptions
    split
    · rfl
    · rename_i ha
      rcases h with ⟨m, hm, g1, g2, g3⟩ | h | h
      · refine absurd (List.any_eq_true.mpr ⟨m, hm, ?_⟩) ha
        cases m <;> simp_all
      · simp [h]
      · simp [h]
  unfold performUtilityAnalysis
  rw [h0, hc]
  rfl

/-- **C65** (a gap: SUM with bounds on the values).  `aggregate()` computes SUM with `min_value` and `max_value` only; the analysis of
such parameters fails as soon as there is data, unless the configurations bound the sums.  (In this model it also fails without
data.) -/
theorem C65_sum_needs_bounds_on_sums (env : Env K) (O : Ops) (sigma : ℝ → ℝ → ℝ → ℝ) (keepOf : SelectionArgs → ℕ → ℚ)
    (approx : Moments → ℕ × List ℚ) (keep : K → Bool) (e d : ℚ) (p : Engine.Params)
    (c : Option (Multi NoiseKind Strategy)) (pub : Option (List K)) (rows : List (P × K × Val))
    (hdata : ∃ r ∈ relevant pub rows, keep r.2.1 = true) (hsum : Engine.Metric.sum ∈ p.metrics)
    (hp : p.minSum = none ∨ p.maxSum = none) (hc : ∀ m, c = some m → m.minSum = none ∨ m.minSum = some []) :
    ∀ r, performUtilityAnalysis env O sigma keepOf approx keep e d p c pub (.raw rows) ≠ .ok r := by
  intro r h
  obtain ⟨l, hl, hall⟩ := perform_combs h
  obtain ⟨x, hx, hx2⟩ : ∃ x ∈ l, x.2 = [(p.minSum, p.maxSum)] := by
    cases c with
    | none =>
      simp only [allParams, Except.ok.injEq] at hl
      subst hl
      exact ⟨_, List.mem_singleton_self _, rfl⟩
    | some m =>
      unfold allParams at hl
      obtain ⟨n, hn, hl⟩ := bind_ok hl
      have hpos := (Config.C55_lengths m n hn).1
      have h1 := EndToEnd.mapM_inv hl
      have hlen : l.length = n := by rw [← h1.length_eq]; simp
      have h2 := h1.get (i := 0) (by simpa using hpos) (by omega)
      refine ⟨l[0], List.getElem_mem _, ?_⟩
      have hg : given m.minSum = false := by rcases hc m rfl with h | h <;> rw [h] <;> rfl
      unfold Multi.get at h2
      obtain ⟨_, -, h2⟩ := bind_ok h2
      obtain ⟨_, -, h2⟩ := bind_ok h2
      obtain ⟨_, -, h2⟩ := bind_ok h2
      obtain ⟨_, -, h2⟩ := bind_ok h2
      obtain ⟨ss, hss, h2⟩ := bind_ok h2
      unfold Multi.sums at hss
      rw [hg] at hss
      simp only [Bool.false_eq_true, if_false, Except.ok.injEq] at hss
      have := congrArg Prod.snd (Except.ok.inj h2)
      simp only [List.get_eq_getElem] at this
      rw [← this, ← hss]
      rfl
  obtain ⟨spec, cb, hcb⟩ := hall x hx (.sum none, { ofConfig x.1 with minSum := p.minSum, maxSum := p.maxSum }) (by
    simp [asked, hsum, hx2])
  unfold Created.comb at hcb
  dsimp only at hcb
  obtain ⟨lo, h1, hcb⟩ := bind_ok hcb
  obtain ⟨hi, h2, -⟩ := bind_ok hcb
  rcases hp with hp | hp
  · rw [hp] at h1; cases h1
  · rw [hp] at h2; cases h2

/-- **C65** (a gap: `max_contributions`).  Without `max_partitions_contributed`, as with `max_contributions`, the analysis of COUNT,
PRIVACY_ID_COUNT and of private partition selection fails as soon as there is data, unless the configurations give it.  (In this model it
also fails without data.) -/
theorem C65_needs_partitions_bound (env : Env K) (O : Ops) (sigma : ℝ → ℝ → ℝ → ℝ) (keepOf : SelectionArgs → ℕ → ℚ)
    (approx : Moments → ℕ × List ℚ) (keep : K → Bool) (e d : ℚ) (p : Engine.Params)
    (c : Option (Multi NoiseKind Strategy)) (pub : Option (List K)) (rows : List (P × K × Val))
    (hdata : ∃ r ∈ relevant pub rows, keep r.2.1 = true)
    (hm : pub = none ∨ Engine.Metric.count ∈ p.metrics ∨ Engine.Metric.privacyIdCount ∈ p.metrics)
    (hp : p.maxPartitions = none) (hc : ∀ m, c = some m → m.l0 = none ∨ m.l0 = some []) :
    ∀ r, performUtilityAnalysis env O sigma keepOf approx keep e d p c pub (.raw rows) ≠ .ok r := by
  intro r h
  obtain ⟨l, hl, hall⟩ := perform_combs h
  obtain ⟨x, hx, hx2⟩ : ∃ x ∈ l, (ofConfig x.1).maxPartitions = none := by
    cases c with
    | none =>
      simp only [allParams, Except.ok.injEq] at hl
      subst hl
      exact ⟨_, List.mem_singleton_self _, hp⟩
    | some m =>
      unfold allParams at hl
      obtain ⟨n, hn, hl⟩ := bind_ok hl
      have hpos := (Config.C55_lengths m n hn).1
      have h1 := EndToEnd.mapM_inv hl
      have hlen : l.length = n := by rw [← h1.length_eq]; simp
      have h2 := h1.get (i := 0) (by simpa using hpos) (by omega)
      refine ⟨l[0], List.getElem_mem _, ?_⟩
      have hg : given m.l0 = false := by rcases hc m rfl with h | h <;> rw [h] <;> rfl
      unfold Multi.get at h2
      obtain ⟨l0, hl0, h2⟩ := bind_ok h2
      obtain ⟨_, -, h2⟩ := bind_ok h2
      obtain ⟨_, -, h2⟩ := bind_ok h2
      obtain ⟨_, -, h2⟩ := bind_ok h2
      obtain ⟨_, -, h2⟩ := bind_ok h2
      unfold Config.replace at hl0
      rw [hg] at hl0
      simp only [Bool.false_eq_true, if_false, Except.ok.injEq] at hl0
      have := congrArg Prod.fst (Except.ok.inj h2)
      simp only [List.get_eq_getElem] at this
      rw [← this]
      simp only [ofConfig, ← hl0]
      exact hp
  rcases hm with rfl | hm | hm
  · obtain ⟨spec, cb, hcb⟩ := hall x hx (.selection, ofConfig x.1) (by simp [asked])
    unfold Created.comb at hcb
    dsimp only at hcb
    obtain ⟨a, h1, -⟩ := bind_ok hcb
    unfold Created.selectionArgs at h1
    obtain ⟨_, -, h1⟩ := bind_ok h1
    obtain ⟨_, -, h1⟩ := bind_ok h1
    obtain ⟨l0, h1, -⟩ := bind_ok h1
    rw [hx2] at h1; cases h1
  · obtain ⟨spec, cb, hcb⟩ := hall x hx (.count, ofConfig x.1) (by simp [asked, hm])
    unfold Created.comb at hcb
    dsimp only at hcb
    obtain ⟨_, -, hcb⟩ := bind_ok hcb
    obtain ⟨l0, h1, -⟩ := bind_ok hcb
    rw [hx2] at h1; cases h1
  · obtain ⟨spec, cb, hcb⟩ := hall x hx (.idCount, ofConfig x.1) (by simp [asked, hm])
    unfold Created.comb at hcb
    dsimp only at hcb
    obtain ⟨l0, h1, -⟩ := bind_ok hcb
    rw [hx2] at h1; cases h1

theorem pack_length {E : Type} {ids rows : ℕ} {items : List (Reports.Item E)} {n : ℕ} {ms}
    (h : Reports.pack ids rows items n = .ok ms) : ms.length = n := by
  unfold Reports.pack at h
  split at h
  · cases h
  · split at h
    · cases h
    · cases h
      have gen : ∀ (l : List (Reports.Item E × ℕ)) (k : ℕ) (a : List (Reports.PartitionMetrics E)),
          (l.foldl (fun result x => result.modify (x.2 / k) fun m => m.put x.1) a).length = a.length := by
        intro l k
        induction l with
        | nil => intro a; rfl
        | cons x l ih => intro a; rw [List.foldl_cons, ih, List.length_modify]
      rw [gen, List.length_replicate]

theorem packAll_lengths {sigma : ℝ → ℝ → ℝ → ℝ} {created : List Created} {n : ℕ} {result : List (K × Except Err (List Metric))} {packed}
    (h : packAll sigma created n result = .ok packed) : packed.length = result.length ∧ ∀ e ∈ packed, e.2.length = n := by
  have h1 := EndToEnd.mapM_inv h
  refine ⟨h1.length_eq.symm, fun e he => ?_⟩
  obtain ⟨i, hi, rfl⟩ := List.getElem_of_mem he
  have h2 := h1.get (h1.length_eq.symm ▸ hi) hi
  obtain ⟨ms, -, h2⟩ := bind_ok h2
  obtain ⟨l, h3, h2⟩ := bind_ok h2
  have h4 := congrArg Prod.snd (Except.ok.inj h2)
  simp only [List.get_eq_getElem] at h4
  rw [← h4]
  unfold packPartition at h3
  split at h3
  · obtain ⟨items, -, h3⟩ := bind_ok h3
    exact pack_length (failing_ok h3)
  · cases h3

/-- **C65** (a gap: an empty list of strategies).  `partition_selection_strategy=[]` in the configurations counts as not given when the
parameters are derived; the reports look the strategy up in the empty list, so with private partitions the analysis of any data
fails. -/
theorem C65_empty_strategies_fail (env : Env K) (hB : env.backend.Lawful)
    (hcomb : ∀ {A : Type} (merge : A → A → A), LawfulCombine merge (env.combine merge)) (O : Ops) (hO : O.Lawful)
    (sigma : ℝ → ℝ → ℝ → ℝ) (keepOf : SelectionArgs → ℕ → ℚ) (approx : Moments → ℕ × List ℚ) (keep : K → Bool) (e d : ℚ)
    (p : Engine.Params) (m : Multi NoiseKind Strategy) (hm : m.strategy = some []) (rows : List (P × K × Val))
    (hs : SameShape (rows.map fun r => r.2.2)) (hdata : ∃ r ∈ rows, keep r.2.1 = true) :
    ∀ r, performUtilityAnalysis env O sigma keepOf approx keep e d p (some m) none (.raw rows) ≠ .ok r := by
  intro r h
  obtain ⟨s, created, combs, n, packed, ss, -, -, -, -, h5, h6, h7, h8⟩ := perform_parts h
  have hss : ss = [] := by
    have h7 := failing_ok (show failing .config (Config.strategies (blueprint p) (some m)) = .ok ss from h7)
    unfold Config.strategies at h7
    obtain ⟨_, -, h7⟩ := bind_ok h7
    rw [hm] at h7
    cases h7; rfl
  have hn : 0 < n := (Config.C55_lengths m n (failing_ok h5)).1
  obtain ⟨hl, hlens⟩ := packAll_lengths h6
  have hne : packed ≠ [] := by
    obtain ⟨row, hrow, hk⟩ := hdata
    obtain ⟨-, hkeys, -⟩ := analyze_tree env.backend (env.combine (mergeStates (Comb.raw :: combs))) (Comb.raw :: combs) (hcomb _)
      approx keep p none (.raw rows)
    have hrel : relevant none rows = rows := rfl
    have hperm := analysisData_raw env.backend hB keep p none rows (fun _ ps h => by cases h) (by rw [hrel]; exact hs) row.2.1
    have hu : row.1 ∈ usersIn row.2.1 (relevant none rows) := by
      have : ∃ r ∈ rows, r.2.1 = row.2.1 ∧ r.1 = row.1 := ⟨row, hrow, rfl, rfl⟩
      simpa [usersIn, and_assoc, hrel] using this
    have hv : valuesOf row.2.1 (analysisData env.backend keep p none (.raw rows)) ≠ [] := by
      intro h0
      rw [h0, hk] at hperm
      have := List.nil_perm.1 hperm
      simp only [if_true, List.map_eq_nil_iff] at this
      rw [this] at hu
      cases hu
    have hmem := (hkeys row.2.1).2 (.inl (valuesOf_ne_nil.1 hv))
    intro h0
    rw [h0] at hl
    rw [List.eq_nil_of_length_eq_zero hl.symm] at hmem
    cases hmem
  obtain ⟨rs, hrs, hperm, -⟩ := Reports.C56_reports O hO
    (fun m => crossCreate false equalWeight (crossInput m)) crossMerge crossMetrics n packed hne hlens
  have hrne : rs ≠ [] := by
    intro h0
    rw [h0] at hperm
    have := hperm.length_eq
    simp at this
    omega
  obtain ⟨x, xs, rfl⟩ := List.exists_cons_of_ne_nil hrne
  change ((Reports.reports O (fun m => crossCreate false equalWeight (crossInput m)) crossMerge crossMetrics packed).mapM
        (addStrategy false ss)) = .ok r.1 at h8
  rw [hrs, hss, List.map_cons, List.mapM_cons] at h8
  obtain ⟨_, h8, -⟩ := bind_ok h8
  simp [addStrategy] at h8

/-- **C65** (a gap: bounds on values hide bounds on sums).  Nothing rejects configurations with bounds on the sums for parameters with
bounds on the values, although `AggregateParams` may not have both.  The contributions are then clipped to the bounds on the sums,
but the noise described is that for the bounds on the values, whatever the bounds on the sums. -/
theorem C65_value_bounds_hide_sum_bounds (sigma : ℝ → ℝ → ℝ → ℝ) (keepOf : SelectionArgs → ℕ → ℚ) {e d : ℚ} {s0 : Budget.State}
    (h0 : Budget.init e d none none = .ok s0) (isPublic : Bool) {metrics : List Engine.Metric} (hsum : Engine.Metric.sum ∈ metrics)
    {p : Engine.Params} {l0 linf : ℕ} (hl0 : 1 ≤ l0) (hlinf : 1 ≤ linf) (hmc : p.maxContributions = none)
    (hp0 : p.maxPartitions = some l0) (hpinf : p.maxPerPartition = some linf) {lo hi : ℚ} (hlo : p.minValue = some lo)
    (hhi : p.maxValue = some hi) (hne : ¬(lo = 0 ∧ hi = 0)) (hd : d = 0 → p.noiseKind ≠ .gaussian) (a b : ℚ) :
    let mechanisms : ℕ := nMechanisms isPublic metrics 1
    let largest : ℝ := ((max |lo| |hi| * linf : ℚ) : ℝ)
    ∃ cs, createConfiguration s0 (asked isPublic metrics p [(some a, some b)]) = .ok cs ∧ ∃ x ∈ cs,
      x.comb keepOf = .ok (.sum none a b l0) ∧
      x.std sigma = .ok (noiseStd sigma p.noiseKind ((e / mechanisms : ℚ) : ℝ)
        ((d / nDelta isPublic metrics p.noiseKind 1 : ℚ) : ℝ) (l0 * largest) (Real.sqrt l0 * largest)) := by
  intro mechanisms largest
  refine ⟨_, C65_configuration_budget h0 _ ?_, ?_⟩
  · intro h x hx _
    rcases mem_asked hx with ⟨_, rfl⟩ | ⟨_, _, _, _, _, rfl⟩ | rfl | rfl <;> exact hd h
  · set q : Engine.Params := { p with minSum := some a, maxSum := some b } with hq
    have hmem : ((.sum none, q) : Kind × Engine.Params) ∈ asked isPublic metrics p [(some a, some b)] := by
      simp [asked, hsum, hq]
    refine ⟨_, List.mem_map.mpr ⟨_, hmem, rfl⟩, ?_, ?_⟩
    · simp [Created.comb, hq, Engine.num, natArg, hp0, failing, bind, Except.bind, pure, Except.pure]
    · have hbv : q.BoundsValid := .inr ⟨l0, linf, hl0, hlinf, hmc, hp0, hpinf⟩
      obtain ⟨s, hs, h1, h2⟩ := EndToEnd.sensSum_val (p := q) hbv hlo hhi hne
      have := std_val sigma e d (asked isPublic metrics p [(some a, some b)]) (.sum none, q) (by simp) hs h1 h2
      rw [this, asked_count, asked_shares_delta]
      have hr : EndToEnd.rowChange q (max |lo| |hi|) = (l0 * largest, Real.sqrt l0 * largest) := by
        simp [EndToEnd.rowChange, hq, hmc, hp0, hpinf, largest]
      rw [hr]
      rfl

/-! ### Non-vacuity -/

/-- SUM with bounds on the values, which `aggregate()` accepts, two rows: the hypotheses of `C65_sum_needs_bounds_on_sums`. -/
example :
    let p : Engine.Params :=
      { metrics := [.sum, .count], maxPartitions := some 2, maxPerPartition := some 3, minValue := some 0, maxValue := some 5 }
    let rows : List (ℕ × Char × Val) := [(1, 'a', .scalar 2), (2, 'b', .scalar 9)]
    (∃ r ∈ relevant none rows, (fun _ : Char => true) r.2.1 = true) ∧ Engine.Metric.sum ∈ p.metrics ∧
      (p.minSum = none ∨ p.maxSum = none) := by
  refine ⟨⟨(1, 'a', .scalar 2), ?_, rfl⟩, ?_, .inl rfl⟩ <;> simp [relevant]

/-- COUNT with `max_contributions`: the hypotheses of `C65_needs_partitions_bound`, with two configurations of other parameters. -/
example :
    let p : Engine.Params := { metrics := [.count], maxContributions := some 4 }
    let m : Multi NoiseKind Strategy := { noise := some [.laplace, .gaussian] }
    p.maxPartitions = none ∧ m.check = .ok 2 ∧ (m.l0 = none ∨ m.l0 = some []) := ⟨rfl, rfl, .inl rfl⟩

/-- Without the empty list of strategies the configurations of `C65_empty_strategies_fail` are accepted with the same size. -/
example :
    let m : Multi NoiseKind Strategy := { l0 := some [1, 2], strategy := some [] }
    m.check = .ok 2 ∧ ({ m with strategy := none } : Multi NoiseKind Strategy).check = .ok 2 := ⟨rfl, rfl⟩

/-- Values in `[0, 1]`, one row per partition, sums clipped to `[0, 100]`: the noise described is that for a sensitivity of 1. -/
example (sigma : ℝ → ℝ → ℝ → ℝ) (keepOf : SelectionArgs → ℕ → ℚ) {s0} (h0 : Budget.init 1 0 none none = .ok s0) :
    ∃ cs, createConfiguration s0 (asked true [.sum]
        { metrics := [.sum], maxPartitions := some 1, maxPerPartition := some 1, minValue := some 0, maxValue := some 1 }
        [(some 0, some 100)]) = .ok cs ∧
      ∃ x ∈ cs, x.comb keepOf = .ok (.sum none 0 100 1) ∧ x.std sigma = .ok (Real.sqrt 2) := by
  obtain ⟨cs, h1, x, hx, h2, h3⟩ := C65_value_bounds_hide_sum_bounds sigma keepOf h0 true (metrics := [.sum]) (by simp)
    (p := { metrics := [.sum], maxPartitions := some 1, maxPerPartition := some 1, minValue := some 0, maxValue := some 1 })
    (l0 := 1) (linf := 1) le_rfl le_rfl rfl rfl rfl rfl rfl (by norm_num) (fun _ => by simp) 0 100
  refine ⟨cs, h1, x, hx, h2, ?_⟩
  rw [h3]
  simp [noiseStd, nMechanisms]

end PDP.Analysis
