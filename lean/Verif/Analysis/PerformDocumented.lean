import Verif.Analysis.PerformReports

/-!
# Property C65: the reports of the utility analysis

The results of the analysis in terms of the options and the data.
-/

set_option linter.unusedVariables false
set_option linter.unusedSectionVars false

namespace PDP.Analysis

open PDP
open PDP.Engine (NoiseKind Strategy MergeTree LawfulCombine usersIn relevant Sens sensCount sensSum sensPrivacyIdCount)
open PDP.EndToEnd (Env additive toMechType)
open PDP.Analysis.Config (Multi allParams SameKind Element SumsElement)

variable {P K : Type} [DecidableEq P] [DecidableEq K]

/-! ### Specification -/

/-- What may differ between configurations: the bounds on partitions and contributions per partition, the noise, the strategy of
partition selection and the bounds on the sum of a user in a partition, per column. -/
structure Setting where
  l0 : ℕ
  linf : ℕ
  noise : NoiseKind
  strategy : Strategy
  sums : List (ℚ × ℚ)

/-- `s` is configuration `i`: the `i`-th element of what is given in the multi-parameter configuration, else what the parameters
say. -/
structure Setting.IsOf (p : Engine.Params) (c : Option (Multi NoiseKind Strategy)) (i : ℕ) (s : Setting) : Prop where
  l0 : Element i (c.bind fun m => m.l0) p.maxPartitions (some s.l0)
  linf : Element i (c.bind fun m => m.linf) p.maxPerPartition (some s.linf)
  noise : Element i (c.bind fun m => m.noise) (some p.noiseKind) (some s.noise)
  strategy : Element i (c.bind fun m => m.strategy) (some p.strategy) (some s.strategy)
  sums : Engine.Metric.sum ∈ p.metrics → SumsElement i (c.bind fun m => m.minSum) (c.bind fun m => m.maxSum)
    [(p.minSum, p.maxSum)] (s.sums.map fun b => (some b.1, some b.2))

/-- Number of mechanisms of a configuration: partition selection, SUM for each of `k` columns, COUNT, PRIVACY_ID_COUNT. -/
def nMechanisms (isPublic : Bool) (metrics : List Engine.Metric) (k : ℕ) : ℕ :=
  (if isPublic then 0 else 1) + (if Engine.Metric.sum ∈ metrics then k else 0) + (if Engine.Metric.count ∈ metrics then 1 else 0) +
    (if Engine.Metric.privacyIdCount ∈ metrics then 1 else 0)

/-- Number of mechanisms which share the delta. -/
def nDelta (isPublic : Bool) (metrics : List Engine.Metric) (noise : NoiseKind) (k : ℕ) : ℕ :=
  match noise with
  | .gaussian => nMechanisms isPublic metrics k
  | .laplace => if isPublic then 0 else 1

/-- Standard deviation of the noise for the sensitivities `l1` and `l2`; `sigma` calibrates the Gaussian noise. -/
noncomputable def noiseStd (sigma : ℝ → ℝ → ℝ → ℝ) (noise : NoiseKind) (e d l1 l2 : ℝ) : ℝ :=
  match noise with
  | .laplace => Real.sqrt 2 * l1 / e
  | .gaussian => sigma e d l2

/-- The errors of a metric, given the contribution and the number of partitions of every user: contributions are clipped to
`[lo, hi]` and at most `l0` partitions of a user are kept; `a` is the largest absolute contribution. -/
noncomputable def errorsOf (sigma : ℝ → ℝ → ℝ → ℝ) (noise : NoiseKind) (e d : ℝ) (l0 : ℕ) (lo hi a : ℚ) (users : List (ℚ × ℕ)) : PM :=
  ⟨(sumAccOf lo hi l0 users).metrics, noiseStd sigma noise e d (l0 * a) (Real.sqrt l0 * a)⟩

/-- The errors of all metrics of a partition with the given users. -/
noncomputable def allErrors (sigma : ℝ → ℝ → ℝ → ℝ) (metrics : List Engine.Metric) (s : Setting) (e d : ℝ) (users : List Data) :
    List PM :=
  (if Engine.Metric.sum ∈ metrics then
    s.sums.zipIdx.map fun b => errorsOf sigma s.noise e d s.l0 b.1.1 b.1.2 (max |b.1.1| |b.1.2|)
      (users.map fun u => (u.value (if s.sums.length = 1 then none else some b.2), u.nPartitions))
    else []) ++
  (if Engine.Metric.count ∈ metrics then
    [errorsOf sigma s.noise e d s.l0 0 s.linf s.linf (users.map fun u => ((u.count : ℚ), u.nPartitions))] else []) ++
  (if Engine.Metric.privacyIdCount ∈ metrics then
    [errorsOf sigma s.noise e d s.l0 0 1 1 (users.map fun u => ((if u.count > 0 then 1 else 0 : ℚ), u.nPartitions))] else [])

/-- `m` describes a partition with the given users under the configuration `s` with budget `(e, d)`: its size, the probability with
which it is kept (1 if there is no selection), and, per metric, the errors and the standard deviation of the noise. -/
structure Describes (sigma : ℝ → ℝ → ℝ → ℝ) (keepOf : SelectionArgs → ℕ → ℚ) (approx : Moments → ℕ × List ℚ) (e d : ℚ)
    (isPublic : Bool) (p : Engine.Params) (s : Setting) (users : List Data) (m : Reports.PartitionMetrics PM) : Prop where
  ids : m.ids = users.length
  rows : m.rows = (users.map Data.count).sum
  always : isPublic = true → m.keep = 1
  selection : isPublic = false → specMetric approx users (.selection s.l0 (keepOf ⟨s.strategy,
    ((e / nMechanisms isPublic p.metrics s.sums.length : ℚ) : ℝ), ((d / nDelta isPublic p.metrics s.noise s.sums.length : ℚ) : ℝ),
    s.l0, p.preThreshold⟩)) = .probability m.keep
  errors : m.errors = allErrors sigma p.metrics s ((e / nMechanisms isPublic p.metrics s.sums.length : ℚ) : ℝ)
    ((d / nDelta isPublic p.metrics s.noise s.sums.length : ℚ) : ℝ) users

/-- `r` sums up the partitions `ps`: numbers of partitions, and per metric the means of the errors over the partitions, weighted by
the probabilities to keep them. -/
structure Summarises (isPublic : Bool) (ps : List (Reports.PartitionMetrics PM)) (r : PartitionsInfo × List MetricUtility) : Prop where
  publicPartitions : isPublic = true → r.1.dataset = ps.countP (fun p => p.rows ≠ 0) ∧
    r.1.empty = ps.countP (fun p => p.rows = 0) ∧ r.1.keptMean = 0 ∧ r.1.keptVar = 0
  privatePartitions : isPublic = false → r.1.dataset = ps.length ∧ r.1.empty = 0 ∧
    r.1.keptMean = (ps.map fun p => (p.keep : ℝ)).sum ∧ r.1.keptVar = (ps.map fun p => (p.keep : ℝ) * (1 - p.keep)).sum
  metrics : ∀ k, (∀ p ∈ ps, p.errors.length = k) → r.2.length = k
  absolute : ∀ (j : ℕ) (metric : Reports.PartitionMetrics PM → PM), (∀ p ∈ ps, p.errors[j]? = some (metric p)) →
    ∀ u, r.2[j]? = some u → ∀ f, u.absolute f =
      weightedMean (fun p => (p.keep : ℝ)) (fun p => valueError (metric p) (if isPublic then 1 else (p.keep : ℝ)) f) ps
  relative : ∀ (j : ℕ) (metric : Reports.PartitionMetrics PM → PM), (∀ p ∈ ps, p.errors[j]? = some (metric p)) →
    ∀ u, r.2[j]? = some u → ∀ f, u.relative f = weightedMean (fun p => (p.keep : ℝ))
      (fun p => relativeError (valueError (metric p) (if isPublic then 1 else (p.keep : ℝ))) (metric p).sum f) ps
  dropped : ∀ (j : ℕ) (metric : Reports.PartitionMetrics PM → PM), (∀ p ∈ ps, p.errors[j]? = some (metric p)) →
    ∀ u, r.2[j]? = some u → (ps.map fun p => (metric p).sum).sum ≠ 0 →
    ∀ f, u.dropped f = (ps.map fun p => dataDropped (metric p) (if isPublic then 1 else (p.keep : ℝ)) f).sum /
      (ps.map fun p => (metric p).sum).sum
  noise : ∀ (j : ℕ) (st : ℝ), (∀ p ∈ ps, ∃ m, p.errors[j]? = some m ∧ m.stdNoise = st) → ∀ u, r.2[j]? = some u → u.noiseStd = st

/-- The metrics of configuration `i` in the partitions whose number of privacy ids is in `Q`. -/
def ofConfiguration (i : ℕ) (Q : ℕ → Prop) [DecidablePred Q]
    (perPartition : List ((K × ℕ) × Reports.PartitionMetrics PM)) : List (Reports.PartitionMetrics PM) :=
  (perPartition.filter fun e => e.1.2 = i ∧ Q e.2.ids).map Prod.snd

/-- The options of the analysis, with the configurations `S`, budget `(e, d)` and values `vs` of the rows, are supported. -/
structure Analysable (d : ℚ) (p : Engine.Params) (c : Option (Multi NoiseKind Strategy)) (isPublic : Bool)
    (S : List Setting) (vs : List Val) : Prop where
  metrics : ∀ m ∈ p.metrics, m = .count ∨ m = .sum ∨ m = .privacyIdCount
  notEnforced : p.boundsEnforced = false
  thresholding : p.postThresholding = false
  maxContributions : p.maxContributions = none
  single : c = none → S.length = 1
  multi : ∀ m, c = some m → m.check = .ok S.length ∧ SameKind m.minSum m.maxSum ∧ (isPublic = false → m.strategy ≠ some [])
  settings : ∀ (i : ℕ) (s : Setting), S[i]? = some s → s.IsOf p c i
  bounds : ∀ s ∈ S, 1 ≤ s.l0 ∧ 1 ≤ s.linf
  sums : Engine.Metric.sum ∈ p.metrics → p.minValue = none ∧ ∀ s ∈ S, ∀ b ∈ s.sums, ¬(b.1 = 0 ∧ b.2 = 0)
  delta : (∃ s ∈ S, s.noise = .gaussian) → 0 < d
  columns : Engine.Metric.sum ∈ p.metrics → ∃ k, (isPublic = true → k = 1) ∧ FitColumns k vs ∧ ∀ s ∈ S, s.sums.length = k
  shape : SameShape vs

/-! ### The configurations -/

theorem element_unique {A : Type} {i : ℕ} {o : Option (List A)} {old new new' : Option A} (h : Element i o old new)
    (h' : Element i o old new') : new = new' := by
  rcases o with _ | _ | ⟨x, l⟩
  · rw [h.2 (.inl rfl), h'.2 (.inl rfl)]
  · rw [h.2 (.inr rfl), h'.2 (.inr rfl)]
  · rw [(h.1 _ rfl (by simp)).1, (h'.1 _ rfl (by simp)).1]

theorem pairs_ext {A B : Type} : ∀ {l l' : List (A × B)}, l.map Prod.fst = l'.map Prod.fst → l.map Prod.snd = l'.map Prod.snd →
    l = l'
  | [], [], _, _ => rfl
  | [], _ :: _, h, _ => by simp at h
  | _ :: _, [], h, _ => by simp at h
  | (a, b) :: l, (a', b') :: l', h, h' => by
    simp only [List.map_cons, List.cons.injEq] at h h'
    rw [pairs_ext h.2 h'.2, h.1, h'.1]

theorem sumsElement_unique {i : ℕ} {mn mx : Option (List Config.SumVal)} {old new new' : List (Option ℚ × Option ℚ)}
    (hmx : ∀ l, mn = some l → l ≠ [] → mx ≠ none) (h : SumsElement i mn mx old new) (h' : SumsElement i mn mx old new') :
    new = new' := by
  rcases mn with _ | _ | ⟨x, l⟩
  · rw [h.2 (.inl rfl), h'.2 (.inl rfl)]
  · rw [h.2 (.inr rfl), h'.2 (.inr rfl)]
  · rcases mx with _ | l'
    · exact absurd rfl (hmx _ rfl (by simp))
    · rcases h.1 _ _ rfl rfl (by simp) with ⟨a, b, h1, h2, h3⟩ | ⟨a, b, h1, h2, h3, h4⟩ <;>
      rcases h'.1 _ _ rfl rfl (by simp) with ⟨a', b', g1, g2, g3⟩ | ⟨a', b', g1, g2, g3, g4⟩
      · rw [h1] at g1; rw [h2] at g2; cases g1; cases g2; rw [h3, g3]
      · rw [h1] at g1; cases g1
      · rw [h1] at g1; cases g1
      · rw [h1] at g1; rw [h2] at g2; cases g1; cases g2
        exact pairs_ext (h3.trans g3.symm) (h4.trans g4.symm)

/-- The parameters of a configuration are those of its setting. -/
structure Setting.Fits (p : Engine.Params) (s : Setting)
    (x : Config.Params NoiseKind Strategy Engine.Params × List (Option ℚ × Option ℚ)) : Prop where
  l0 : (ofConfig x.1).maxPartitions = some s.l0
  linf : (ofConfig x.1).maxPerPartition = some s.linf
  noise : (ofConfig x.1).noiseKind = s.noise
  strategy : (ofConfig x.1).strategy = s.strategy
  strategy' : x.1.strategy = s.strategy
  contributions : (ofConfig x.1).maxContributions = p.maxContributions
  minValue : (ofConfig x.1).minValue = p.minValue
  preThreshold : (ofConfig x.1).preThreshold = p.preThreshold
  sums : Engine.Metric.sum ∈ p.metrics → x.2 = s.sums.map fun b => (some b.1, some b.2)

theorem Analysable.fits {d : ℚ} {p : Engine.Params} {c} {isPublic : Bool} {S : List Setting} {vs} (h : Analysable d p c isPublic S vs) :
    ∃ l, allParams (blueprint p) c = .ok l ∧ l.length = S.length ∧
      ∀ (i : ℕ) s x, S[i]? = some s → l[i]? = some x → s.Fits p x := by
  cases c with
  | none =>
    refine ⟨_, rfl, by simp [h.single rfl], fun i s x hs hx => ?_⟩
    have h1 := h.settings i s hs
    simp only [List.getElem?_singleton] at hx
    split at hx
    · cases hx
      have e1 := h1.l0.2 (.inl rfl)
      have e2 := h1.linf.2 (.inl rfl)
      have e3 := h1.noise.2 (.inl rfl)
      have e4 := h1.strategy.2 (.inl rfl)
      simp only [Option.some.injEq] at e3 e4
      exact ⟨e1.symm, e2.symm, e3.symm, e4.symm, e4.symm, rfl, rfl, rfl, fun hm => ((h1.sums hm).2 (.inl rfl)).symm⟩
    · cases hx
  | some m =>
    obtain ⟨hc, hk, -⟩ := h.multi m rfl
    obtain ⟨l, h1, h2, h3, -⟩ := Config.C55_all m S.length hc hk (blueprint p)
    refine ⟨l, h1, h2, fun i s x hs hx => ?_⟩
    have hi : i < S.length := (List.getElem?_eq_some_iff.mp hs).1
    obtain ⟨x', g1, g2⟩ := h3 i hi
    rw [hx] at g1; cases g1
    obtain ⟨q, sums, g3, a1, a2, a3, a4, a5, a6, a7, a8⟩ := Config.C55_element m S.length i hc hi hk (blueprint p)
    rw [g2] at g3; cases g3
    have hst := h.settings i s hs
    have e1 := element_unique a1 hst.l0
    have e2 := element_unique a2 hst.linf
    have e3 := element_unique a3 hst.noise
    have e4 := element_unique a4 hst.strategy
    simp only [Option.some.injEq] at e4
    refine ⟨e1, e2, by simp [ofConfig, e3], e4, e4, by simp [ofConfig, a8, blueprint], by simp [ofConfig, a8, blueprint],
      by simp [ofConfig, a8, blueprint], fun hm => ?_⟩
    refine sumsElement_unique (fun l hl hne hn => ?_) a5 (hst.sums hm)
    have := (Config.C55_lengths m S.length hc).2.2.2.2.2.2.2.2.2 hn
    rw [hl] at this; cases this

theorem Analysable.by {e d : ℚ} {p : Engine.Params} {c} {isPublic : Bool} {S : List Setting} {vs} (h : Analysable d p c isPublic S vs) {l}
    (hl : allParams (blueprint p) c = .ok l) (hlen : l.length = S.length)
    (hfit : ∀ (i : ℕ) s x, S[i]? = some s → l[i]? = some x → s.Fits p x) : AnalysableBy e d p c isPublic l vs := by
  have hget : ∀ x ∈ l, ∃ s ∈ S, s.Fits p x := by
    intro x hx
    obtain ⟨i, hi, rfl⟩ := List.mem_iff_getElem.mp hx
    have hi' : i < S.length := by omega
    exact ⟨S[i], List.getElem_mem _, hfit i _ _ (List.getElem?_eq_getElem hi') (List.getElem?_eq_getElem hi)⟩
  refine ⟨h.metrics, h.notEnforced, h.thresholding, hl, fun m hm => (h.multi m hm).2.1, fun m hm => (h.multi m hm).2.2, ?_, ?_, ?_,
    h.shape⟩
  · rintro ⟨x, hx, hn⟩
    obtain ⟨s, hs, hf⟩ := hget x hx
    exact h.delta ⟨s, hs, hf.noise.symm.trans hn⟩
  · intro x hx
    obtain ⟨s, hs, hf⟩ := hget x hx
    refine ⟨⟨s.l0, s.linf, (h.bounds s hs).1, (h.bounds s hs).2, hf.contributions.trans h.maxContributions, hf.l0, hf.linf⟩,
      fun hm => ⟨hf.minValue.trans (h.sums hm).1, ?_⟩⟩
    rw [hf.sums hm]
    intro b hb
    obtain ⟨b', hb', rfl⟩ := List.mem_map.mp hb
    exact ⟨_, _, rfl, (h.sums hm).2 s hs b' hb'⟩
  · intro hm
    obtain ⟨k, h1, h2, h3⟩ := h.columns hm
    refine ⟨k, h1, h2, fun x hx => ?_⟩
    obtain ⟨s, hs, hf⟩ := hget x hx
    rw [hf.sums hm, List.length_map, h3 s hs]

/-! ### The metrics of a partition -/

theorem asked_count (isPublic : Bool) (metrics : List Engine.Metric) (p : Engine.Params) (sums : List (Option ℚ × Option ℚ)) :
    (asked isPublic metrics p sums).length = nMechanisms isPublic metrics sums.length := by
  unfold asked nMechanisms
  simp only [List.length_append]
  congr 1
  · congr 1
    · congr 1
      · split <;> simp
      · split <;> simp
    · split <;> simp
  · split <;> simp

theorem asked_shares_delta (isPublic : Bool) (metrics : List Engine.Metric) (p : Engine.Params) (sums : List (Option ℚ × Option ℚ)) :
    ((asked isPublic metrics p sums).filter usesDelta).length = nDelta isPublic metrics p.noiseKind sums.length := by
  cases hn : p.noiseKind with
  | gaussian =>
    rw [List.filter_eq_self.mpr, asked_count]
    · rfl
    · intro x hx
      rcases mem_asked hx with ⟨_, rfl⟩ | ⟨_, b, i, _, _, rfl⟩ | rfl | rfl <;> simp [usesDelta, hn]
  | laplace =>
    unfold asked nDelta
    have h2 : ((sums.zipIdx.map fun x => (Kind.sum (if sums.length = 1 then none else some x.2),
        ({ p with minSum := x.1.1, maxSum := x.1.2 } : Engine.Params))).filter usesDelta) = [] := by
      rw [List.filter_eq_nil_iff]
      intro x hx
      obtain ⟨y, -, rfl⟩ := List.mem_map.mp hx
      simp [usesDelta, hn]
    have h3 : usesDelta (Kind.count, p) = false := by simp [usesDelta, hn]
    have h4 : usesDelta (Kind.idCount, p) = false := by simp [usesDelta, hn]
    have h5 : usesDelta (Kind.selection, p) = true := by simp [usesDelta]
    simp only [List.filter_append, List.length_append]
    cases isPublic <;> by_cases m1 : Engine.Metric.sum ∈ metrics <;> by_cases m2 : Engine.Metric.count ∈ metrics <;>
      by_cases m3 : Engine.Metric.privacyIdCount ∈ metrics <;> simp [m1, m2, m3, h2, h3, h4, h5]

theorem std_val (sigma : ℝ → ℝ → ℝ → ℝ) (e d : ℚ) (l : List (Kind × Engine.Params)) (x : Kind × Engine.Params)
    (hx : x.1 ≠ .selection) {s : Sens} {a b : ℝ} (hs : (⟨x.1, x.2, equalShare e d l x⟩ : Created).sens = .ok s)
    (h1 : s.l1 = some a) (h2 : s.l2 = some b) : (⟨x.1, x.2, equalShare e d l x⟩ : Created).std sigma =
      .ok (noiseStd sigma x.2.noiseKind ((e / l.length : ℚ) : ℝ) ((d / (l.filter usesDelta).length : ℚ) : ℝ) a b) := by
  obtain ⟨k, p⟩ := x
  have hk : k.mechanism p = toMechType p.noiseKind.mechanism := by cases k <;> simp_all [Kind.mechanism]
  unfold Created.std
  simp only [equalShare, hk]
  cases hn : p.noiseKind
  · have := EndToEnd.additive_laplace sigma hs h1 (e := ((e / l.length : ℚ) : ℝ))
      (d := some (((if usesDelta (k, p) then d / (l.filter usesDelta).length else 0 : ℚ)) : ℝ))
    simp only [equalShare, hk, hn] at this
    simp only [NoiseKind.mechanism, toMechType] at this ⊢
    rw [this]
    simp only [Engine.Mechanism.Additive.std, noiseStd, Except.ok.injEq]
    ring
  · have hu : usesDelta (k, p) = true := by simp [usesDelta, hn]
    have := EndToEnd.additive_gaussian sigma hs h2 (e := ((e / l.length : ℚ) : ℝ))
      (d := (((if usesDelta (k, p) then d / (l.filter usesDelta).length else 0 : ℚ)) : ℝ))
    simp only [equalShare, hk, hn] at this
    simp only [NoiseKind.mechanism, toMechType] at this ⊢
    rw [this]
    simp only [Engine.Mechanism.Additive.std, noiseStd, hu, if_true]

/-- The errors expected of a combiner. -/
noncomputable def wanted (sigma : ℝ → ℝ → ℝ → ℝ) (s : Setting) (e d : ℝ) (users : List Data) (y : Kind × Engine.Params) : PM :=
  match y.1 with
  | .sum column => errorsOf sigma s.noise e d s.l0 (y.2.minSum.getD 0) (y.2.maxSum.getD 0)
      (max |y.2.minSum.getD 0| |y.2.maxSum.getD 0|) (users.map fun u => (u.value column, u.nPartitions))
  | .count => errorsOf sigma s.noise e d s.l0 0 s.linf s.linf (users.map fun u => ((u.count : ℚ), u.nPartitions))
  | _ => errorsOf sigma s.noise e d s.l0 0 1 1 (users.map fun u => ((if u.count > 0 then 1 else 0 : ℚ), u.nPartitions))

theorem wanted_eq (sigma : ℝ → ℝ → ℝ → ℝ) {p : Engine.Params} {s : Setting} {x} (hf : s.Fits p x) (e d : ℝ) (users : List Data)
    (isPublic : Bool) :
    ((asked isPublic p.metrics (ofConfig x.1) x.2).filter fun y => y.1 ≠ .selection).map (wanted sigma s e d users) =
      allErrors sigma p.metrics s e d users := by
  unfold asked allErrors
  simp only [List.filter_append, List.map_append]
  have h1 : (((if isPublic = true then [] else [(Kind.selection, ofConfig x.1)]).filter fun y => decide (y.1 ≠ .selection)).map
      (wanted sigma s e d users)) = [] := by cases isPublic <;> simp
  rw [h1, List.nil_append]
  congr 1
  · congr 1
    · split
      · rename_i hm
        rw [hf.sums hm, List.filter_eq_self.mpr (by
          intro y hy
          obtain ⟨z, -, rfl⟩ := List.mem_map.mp hy
          simp), List.zipIdx_map, List.map_map, List.map_map]
        apply List.map_congr_left
        intro b hb
        simp [wanted]
      · rfl
    · split <;> simp [wanted]
  · split <;> simp [wanted]

theorem describes_documented {sigma : ℝ → ℝ → ℝ → ℝ} {keepOf : SelectionArgs → ℕ → ℚ} {approx : Moments → ℕ × List ℚ} {e d : ℚ}
    {isPublic : Bool} {p : Engine.Params} {s : Setting} {x} {users : List Data} {m : Reports.PartitionMetrics PM}
    (hf : s.Fits p x) (hr : Runnable p.metrics (ofConfig x.1) x.2)
    (h : DescribedBy sigma keepOf approx users (planned e d isPublic p.metrics (ofConfig x.1) x.2) m) :
    Describes sigma keepOf approx e d isPublic p s users m := by
  have hlen : nMechanisms isPublic p.metrics x.2.length = nMechanisms isPublic p.metrics s.sums.length := by
    unfold nMechanisms
    split
    · rename_i hm
      by_cases hs : Engine.Metric.sum ∈ p.metrics
      · simp [hf.sums hs]
      · simp [hs]
    · by_cases hs : Engine.Metric.sum ∈ p.metrics
      · simp [hf.sums hs]
      · simp [hs]
  have hlen2 : nDelta isPublic p.metrics s.noise x.2.length = nDelta isPublic p.metrics s.noise s.sums.length := by
    unfold nDelta; split
    · exact hlen
    · rfl
  have hL := asked_count isPublic p.metrics (ofConfig x.1) x.2
  have hD := asked_shares_delta isPublic p.metrics (ofConfig x.1) x.2
  rw [hlen] at hL
  rw [hf.noise, hlen2] at hD
  obtain ⟨l0, linf, hl0, hlinf, hmc, hp0, hpinf⟩ := hr.bounds
  have e0 : l0 = s.l0 := by have := hf.l0; rw [hp0] at this; simpa using this
  have einf : linf = s.linf := by have := hf.linf; rw [hpinf] at this; simpa using this
  subst e0 einf
  have hbv : (ofConfig x.1).BoundsValid := .inr ⟨_, _, hl0, hlinf, hmc, hp0, hpinf⟩
  refine ⟨h.ids, h.rows, fun hp => h.always ?_, fun hp => ?_, ?_⟩
  · intro y hy
    obtain ⟨z, hz, rfl⟩ := List.mem_map.mp hy
    rcases mem_asked hz with ⟨hn, _⟩ | ⟨_, b, i, _, _, rfl⟩ | rfl | rfl
    · rw [hp] at hn; cases hn
    all_goals simp
  · have hmem : (Kind.selection, ofConfig x.1) ∈ asked isPublic p.metrics (ofConfig x.1) x.2 := by
      simp [asked, hp]
    obtain ⟨a, ha, h2⟩ := h.selection _ (List.mem_map.mpr ⟨_, hmem, rfl⟩) rfl
    have hu : usesDelta (Kind.selection, ofConfig x.1) = true := by simp [usesDelta]
    simp only [Created.selectionArgs, equalShare, hu, if_true, Engine.Mechanism.computed, failing, hp0, Engine.natArg, bind, Except.bind,
      pure, Except.pure, Except.ok.injEq, hL, hD, hf.strategy, hf.preThreshold] at ha
    rw [← ha] at h2
    exact h2
  · have hE := h.errors
    rw [planned, List.filter_map, List.forall₂_map_left_iff] at hE
    rw [← wanted_eq sigma hf _ _ users isPublic]
    have key : ∀ y ∈ (asked isPublic p.metrics (ofConfig x.1) x.2).filter fun y => y.1 ≠ .selection, ∀ err,
        (∃ cb a st, (⟨y.1, y.2, equalShare e d (asked isPublic p.metrics (ofConfig x.1) x.2) y⟩ : Created).comb keepOf = .ok cb ∧
          specMetric approx users cb = .sum a ∧
          (⟨y.1, y.2, equalShare e d (asked isPublic p.metrics (ofConfig x.1) x.2) y⟩ : Created).std sigma = .ok st ∧
          err = ⟨a.metrics, st⟩) →
        err = wanted sigma s ((e / nMechanisms isPublic p.metrics s.sums.length : ℚ) : ℝ)
          ((d / nDelta isPublic p.metrics s.noise s.sums.length : ℚ) : ℝ) users y := by
      rintro y hy err ⟨cb, a, st, h1, h2, h3, rfl⟩
      obtain ⟨hy, hns⟩ := List.mem_filter.mp hy
      simp only [ne_eq, decide_not, Bool.not_eq_eq_eq_not, Bool.not_true, decide_eq_false_iff_not] at hns
      rcases mem_asked hy with ⟨_, rfl⟩ | ⟨hm, b, i, hb, hi, rfl⟩ | rfl | rfl
      · exact absurd rfl hns
      · obtain ⟨hmv, hbs⟩ := hr.sums hm
        obtain ⟨lo, hi', rfl, hne⟩ := hbs b hb
        have hbv' : ({ ofConfig x.1 with minSum := some lo, maxSum := some hi' } : Engine.Params).BoundsValid := hbv
        obtain ⟨s', hs, g1, g2⟩ := EndToEnd.sensSum_partition_val hbv' hmc rfl rfl hmv hne
        rw [std_val sigma e d _ _ hns hs g1 g2] at h3
        simp only [Created.comb, failing, hp0, Engine.natArg, Engine.num, bind, Except.bind, pure, Except.pure, Except.ok.injEq] at h1
        subst h1
        simp only [specMetric, Metric.sum.injEq] at h2
        simp only [Except.ok.injEq, hL, hD, hf.noise, EndToEnd.idChange, hmc, hp0, Option.getD_some] at h3
        subst h2 h3
        simp [wanted, errorsOf]
      · obtain ⟨s', hs, g1, g2⟩ := EndToEnd.sensCount_val hbv
        rw [std_val sigma e d _ (Kind.count, ofConfig x.1) hns hs g1 g2] at h3
        simp only [Created.comb, failing, hp0, hpinf, Engine.natArg, Engine.num, bind, Except.bind, pure, Except.pure,
          Except.ok.injEq] at h1
        subst h1
        simp only [specMetric, Metric.sum.injEq] at h2
        simp only [Except.ok.injEq, hL, hD, hf.noise, EndToEnd.rowChange, hmc, hp0, hpinf, Option.getD_some] at h3
        subst h2 h3
        simp [wanted, errorsOf]
      · obtain ⟨s', hs, g1, g2⟩ := EndToEnd.sensPid_val hbv
        rw [std_val sigma e d _ (Kind.idCount, ofConfig x.1) hns hs g1 g2] at h3
        simp only [Created.comb, failing, hp0, Engine.natArg, Engine.num, bind, Except.bind, pure, Except.pure,
          Except.ok.injEq] at h1
        subst h1
        simp only [specMetric, Metric.sum.injEq] at h2
        simp only [Except.ok.injEq, hL, hD, hf.noise, EndToEnd.idChange, hmc, hp0, Option.getD_some] at h3
        subst h2 h3
        simp [wanted, errorsOf]
    generalize (((e / nMechanisms isPublic p.metrics s.sums.length : ℚ) : ℝ)) = e' at *
    generalize (((d / nDelta isPublic p.metrics s.noise s.sums.length : ℚ) : ℝ)) = d' at *
    have hfil : ((fun x : Created => decide (x.kind ≠ .selection)) ∘ fun y : Kind × Engine.Params =>
        (⟨y.1, y.2, equalShare e d (asked isPublic p.metrics (ofConfig x.1) x.2) y⟩ : Created)) =
        fun y : Kind × Engine.Params => decide (y.1 ≠ .selection) := rfl
    rw [hfil] at hE
    clear hfil
    revert key hE
    generalize ((asked isPublic p.metrics (ofConfig x.1) x.2).filter fun y => decide (y.1 ≠ .selection)) = L
    generalize m.errors = E
    intro hE key
    induction hE with
    | nil => rfl
    | cons h1 _ ih =>
      rw [List.map_cons, ← key _ (by simp) _ h1, ih fun y hy => key y (by simp [hy])]

/-! ### The summary of the partitions -/

theorem weightedMean_map {A B : Type} (f : A → B) (w x : B → ℝ) (l : List A) :
    weightedMean w x (l.map f) = weightedMean (fun a => w (f a)) (fun a => x (f a)) l := by
  unfold weightedMean
  simp only [List.map_map, Function.comp_def]

theorem weightedMean_congr {A : Type} {w w' x x' : A → ℝ} {l : List A} (hw : ∀ a ∈ l, w a = w' a) (hx : ∀ a ∈ l, x a = x' a) :
    weightedMean w x l = weightedMean w' x' l := by
  unfold weightedMean
  rw [List.map_congr_left hw, List.map_congr_left (f := fun a => w a * x a) (g := fun a => w' a * x' a)
    fun a ha => by rw [hw a ha, hx a ha]]

/-- The metric number `j`. -/
noncomputable def nth (j : ℕ) (q : PartitionMetrics) : PM := q.errors[j]?.getD ⟨⟨0, 0, 0, 0, 0⟩, 0⟩

theorem summarises_of_cross {isPublic : Bool} {ps : List (Reports.PartitionMetrics PM)} {r}
    (h : SummarisesCross isPublic (ps.map crossInput) r) : Summarises isPublic ps r where
  publicPartitions hi := by
    have := h.publicPartitions hi
    rw [List.countP_map, List.countP_map] at this
    exact this
  privatePartitions hi := by
    have := h.privatePartitions hi
    simpa [List.map_map, Function.comp_def, crossInput] using this
  metrics k hk := h.metrics k (by simpa [crossInput] using hk)
  absolute j metric hm u hu f := by
    have := h.absolute j (nth j) (by simpa [crossInput, nth] using fun p hp => by rw [hm p hp]; rfl) u hu f
    rw [this, weightedMean_map]
    refine weightedMean_congr (fun _ _ => rfl) fun p hp => ?_
    simp [crossInput, nth, hm p hp]
  relative j metric hm u hu f := by
    have := h.relative j (nth j) (by simpa [crossInput, nth] using fun p hp => by rw [hm p hp]; rfl) u hu f
    rw [this, weightedMean_map]
    refine weightedMean_congr (fun _ _ => rfl) fun p hp => ?_
    simp [crossInput, nth, hm p hp]
  dropped j metric hm u hu h0 f := by
    have e1 : (ps.map crossInput).map (fun p => (nth j p).sum) = ps.map fun p => (metric p).sum := by
      rw [List.map_map]
      apply List.map_congr_left
      intro p hp
      simp [crossInput, nth, hm p hp]
    have e2 : (ps.map crossInput).map (fun p => dataDropped (nth j p) (if isPublic then 1 else p.keep) f) =
        ps.map fun p => dataDropped (metric p) (if isPublic then 1 else (p.keep : ℝ)) f := by
      rw [List.map_map]
      apply List.map_congr_left
      intro p hp
      simp [crossInput, nth, hm p hp]
    have := h.dropped j (nth j) (by simpa [crossInput, nth] using fun p hp => by rw [hm p hp]; rfl) u hu (by rw [e1]; exact h0) f
    rw [this, e1, e2]
  noise j st hm u hu := h.noise j st (by simpa [crossInput] using hm) u hu

/-! ### The theorem -/

/-- **C65** (reports).  For supported options and data, for any backend, any order of merging and any sampling of partitions, the
analysis succeeds.  Every analysed partition is described once per configuration, with the size, the probability to keep it,
the errors and the noise that belong to its users and to that configuration with its budget.  There is one report per
configuration (none if there are no partitions), with its strategy if partitions are selected; it sums up all partitions, and
each of its bins, which are in increasing order, sums up exactly the partitions whose number of privacy ids is in the bin; every
partition is in exactly one bin. -/
theorem C65_analysis_report (env : Env K) (hB : env.backend.Lawful)
    (hcomb : ∀ {A : Type} (merge : A → A → A), LawfulCombine merge (env.combine merge)) (O : Ops) (hO : O.Lawful)
    (sigma : ℝ → ℝ → ℝ → ℝ) (keepOf : SelectionArgs → ℕ → ℚ) (approx : Moments → ℕ × List ℚ) (keep : K → Bool) {e d : ℚ} {s0}
    (h0 : Budget.init e d none none = .ok s0) (p : Engine.Params) (c : Option (Multi NoiseKind Strategy))
    (pub : Option (List K)) (rows : List (P × K × Val)) (S : List Setting)
    (ha : Analysable d p c pub.isSome S ((relevant pub rows).map fun r => r.2.2))
    (hf : p.publicFiltered = true → ∀ ps, pub = some ps → ∀ r ∈ rows, r.2.1 ∈ ps) :
    ∃ reports perPartition,
      performUtilityAnalysis env O sigma keepOf approx keep e d p c pub (.raw rows) = .ok (reports, perPartition) ∧
      (perPartition.map Prod.fst).Nodup ∧
      (∀ k i, (k, i) ∈ perPartition.map Prod.fst ↔ i < S.length ∧
        ((keep k = true ∧ ∃ r ∈ relevant pub rows, r.2.1 = k) ∨ ∃ ps, pub = some ps ∧ k ∈ ps)) ∧
      (∀ k i m (s : Setting), ((k, i), m) ∈ perPartition → S[i]? = some s →
        Describes sigma keepOf approx e d pub.isSome p s (usersData p keep pub rows k) m) ∧
      (perPartition = [] → reports = []) ∧
      (perPartition ≠ [] → (reports.map fun r => r.report.index).Perm (List.range S.length)) ∧
      ∀ r ∈ reports,
        (∀ s, S[r.report.index]? = some s → r.strategy = if pub.isSome then none else some s.strategy) ∧
        Summarises pub.isSome (ofConfiguration r.report.index (fun _ => True) perPartition) r.report.total ∧
        (r.report.bins.map fun b => b.lo).Pairwise (· < ·) ∧
        (∀ b ∈ r.report.bins,
          Summarises pub.isSome (ofConfiguration r.report.index (Reports.InBucket b.lo b.hi) perPartition) b.report) ∧
        ∀ k m, ((k, r.report.index), m) ∈ perPartition → ∃ b ∈ r.report.bins, Reports.InBucket b.lo b.hi m.ids ∧
          ∀ b' ∈ r.report.bins, Reports.InBucket b'.lo b'.hi m.ids → b' = b := by
  obtain ⟨l, hl, hlen, hfit⟩ := ha.fits
  have hby : AnalysableBy e d p c pub.isSome l ((relevant pub rows).map fun r => r.2.2) := ha.by hl hlen hfit
  obtain ⟨reports, pp, h1, h2, h3, h4, h5, h6, h7⟩ :=
    analysis_report env hB hcomb O hO sigma keepOf approx keep h0 p c pub rows l hby hf
  have hcross : ∀ (i : ℕ) (Q : ℕ → Prop) [DecidablePred Q], crossOf i Q pp = (ofConfiguration i Q pp).map crossInput := by
    intro i Q _
    simp [crossOf, ofConfiguration]
  refine ⟨reports, pp, h1, h2, ?_, ?_, h5, ?_, ?_⟩
  · intro k i; rw [h3, hlen]
  · intro k i m s hm hs
    have hi : i < l.length := by rw [hlen]; exact (List.getElem?_eq_some_iff.mp hs).1
    have hx := List.getElem?_eq_getElem hi
    exact describes_documented (hfit i s _ hs hx) (hby.runnable _ (List.getElem_mem hi)) (h4 k i m _ hm hx)
  · rw [← hlen]; exact h6
  · intro r hr
    obtain ⟨g1, g2, g3, g4, g5⟩ := h7 r hr
    refine ⟨fun s hs => ?_, summarises_of_cross ?_, g3, fun b hb => summarises_of_cross ?_, g5⟩
    · have hi : r.report.index < l.length := by rw [hlen]; exact (List.getElem?_eq_some_iff.mp hs).1
      have hx := List.getElem?_eq_getElem hi
      rw [g1 _ hx, (hfit _ s _ hs hx).strategy']
    · rw [← hcross]; exact g2
    · rw [← hcross]; exact g4 b hb

/-! ### Non-vacuity -/

/-- Two configurations (numbers of partitions 1 and 2, strategies) of SUM and COUNT, private partitions. -/
example :
    let p : Engine.Params :=
      { metrics := [.sum, .count], maxPartitions := some 7, maxPerPartition := some 3, minSum := some 0, maxSum := some 5 }
    let c : Multi NoiseKind Strategy := { l0 := some [1, 2], strategy := some [.truncatedGeometric, .laplaceThresholding] }
    let rows : List (ℕ × Char × Val) := [(1, 'a', .scalar 2), (1, 'b', .scalar 9), (2, 'a', .scalar (-1))]
    let S : List Setting := [⟨1, 3, .laplace, .truncatedGeometric, [(0, 5)]⟩, ⟨2, 3, .laplace, .laplaceThresholding, [(0, 5)]⟩]
    Analysable (1 / 10) p (some c) false S ((relevant none rows).map fun r => r.2.2) := by
  intro p c rows S
  refine ⟨by simp [p], rfl, rfl, rfl, by simp, ?_, ?_, ?_, ?_, by norm_num, ?_, ?_⟩
  · intro m hm; cases hm
    refine ⟨rfl, ?_, by simp [c]⟩
    intro a b h; cases h
  · intro i s hs
    match i, hs with
    | 0, hs => cases hs; exact ⟨by simp [Element, c], by simp [Element, c, p], by simp [Element, c, p], by simp [Element, c],
        fun _ => by simp [SumsElement, c, p]⟩
    | 1, hs => cases hs; exact ⟨by simp [Element, c], by simp [Element, c, p], by simp [Element, c, p], by simp [Element, c],
        fun _ => by simp [SumsElement, c, p]⟩
    | i + 2, hs => simp [S] at hs
  · simp [S]
  · intro _; exact ⟨rfl, by simp [S]⟩
  · intro _
    exact ⟨1, fun _ => rfl, by simp [FitColumns, relevant, rows], by simp [S]⟩
  · left; simp [relevant, rows]

end PDP.Analysis
