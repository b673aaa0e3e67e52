import Verif.Analysis.PerformNoise
import Verif.EndToEnd.Query
import Verif.EndToEnd.CallsCover

/-!
# The reports of the utility analysis, in terms of its combiners

From the options and the data to the metrics of every partition and the reports of every configuration.
-/

set_option linter.unusedVariables false
set_option linter.unusedSectionVars false

namespace PDP.Analysis

open PDP
open PDP.Engine (NoiseKind Strategy natArg MergeTree LawfulCombine usersIn relevant Sens sensCount sensSum sensPrivacyIdCount)
open PDP.Engine.Mechanism (Spec computed)
open PDP.EndToEnd (Env additive toMechType)
open PDP.Analysis.Config (Multi allParams strategies SameKind)

variable {P K : Type} [DecidableEq P] [DecidableEq K]

/-! ### Specification -/

/-- Parameters which can be analysed: bounds on partitions and on contributions per partition; for SUM bounds on the sum of a user
in a partition for every column, and no bounds on values. -/
structure Runnable (metrics : List Engine.Metric) (p : Engine.Params) (sums : List (Option ℚ × Option ℚ)) : Prop where
  bounds : ∃ l0 linf, 1 ≤ l0 ∧ 1 ≤ linf ∧ p.maxContributions = none ∧ p.maxPartitions = some l0 ∧ p.maxPerPartition = some linf
  sums : Engine.Metric.sum ∈ metrics → p.minValue = none ∧ ∀ b ∈ sums, ∃ lo hi, b = (some lo, some hi) ∧ ¬(lo = 0 ∧ hi = 0)

/-- The values fit `k` columns of SUM: numbers for one column, else one number per column. -/
def FitColumns (k : ℕ) (vs : List Val) : Prop :=
  if k = 1 then ∀ v ∈ vs, ∃ x, v = .scalar x else ∀ v ∈ vs, ∃ xs, v = .cols xs ∧ xs.length = k

/-- What the analysis does for one configuration: partition selection, then SUM for every column, COUNT and PRIVACY_ID_COUNT, with
equal shares of the budget. -/
noncomputable def planned (e d : ℚ) (isPublic : Bool) (metrics : List Engine.Metric) (p : Engine.Params)
    (sums : List (Option ℚ × Option ℚ)) : List Created :=
  (asked isPublic metrics p sums).map fun x => ⟨x.1, x.2, equalShare e d (asked isPublic metrics p sums) x⟩

/-- `m` describes a partition with the given users under one configuration: its size, the probability with which it is kept (1 if
there is no selection), and, per metric, the errors and the standard deviation of the noise. -/
structure DescribedBy (sigma : ℝ → ℝ → ℝ → ℝ) (keepOf : SelectionArgs → ℕ → ℚ) (approx : Moments → ℕ × List ℚ) (users : List Data)
    (created : List Created) (m : Reports.PartitionMetrics PM) : Prop where
  ids : m.ids = users.length
  rows : m.rows = (users.map Data.count).sum
  always : (∀ x ∈ created, x.kind ≠ .selection) → m.keep = 1
  selection : ∀ x ∈ created, x.kind = .selection →
    ∃ a, x.selectionArgs = .ok a ∧ specMetric approx users (.selection a.l0 (keepOf a)) = .probability m.keep
  errors : List.Forall₂ (fun x err => ∃ cb a st, x.comb keepOf = .ok cb ∧ specMetric approx users cb = .sum a ∧
    x.std sigma = .ok st ∧ err = ⟨a.metrics, st⟩) (created.filter fun x => x.kind ≠ .selection) m.errors

/-- `r` sums up the partitions `ps`: numbers of partitions, and per metric the means of the errors over the partitions, weighted by
the probabilities to keep them. -/
structure SummarisesCross (isPublic : Bool) (ps : List PartitionMetrics) (r : PartitionsInfo × List MetricUtility) : Prop where
  publicPartitions : isPublic = true → r.1.dataset = ps.countP (fun p => p.rows ≠ 0) ∧
    r.1.empty = ps.countP (fun p => p.rows = 0) ∧ r.1.keptMean = 0 ∧ r.1.keptVar = 0
  privatePartitions : isPublic = false → r.1.dataset = ps.length ∧ r.1.empty = 0 ∧ r.1.keptMean = (ps.map fun p => p.keep).sum ∧
    r.1.keptVar = (ps.map fun p => p.keep * (1 - p.keep)).sum
  metrics : ∀ k, (∀ p ∈ ps, p.errors.length = k) → r.2.length = k
  absolute : ∀ (j : ℕ) (metric : PartitionMetrics → PM), (∀ p ∈ ps, p.errors[j]? = some (metric p)) → ∀ u, r.2[j]? = some u →
    ∀ f, u.absolute f =
      weightedMean (fun p => p.keep) (fun p => valueError (metric p) (if isPublic then 1 else p.keep) f) ps
  relative : ∀ (j : ℕ) (metric : PartitionMetrics → PM), (∀ p ∈ ps, p.errors[j]? = some (metric p)) → ∀ u, r.2[j]? = some u →
    ∀ f, u.relative f = weightedMean (fun p => p.keep)
      (fun p => relativeError (valueError (metric p) (if isPublic then 1 else p.keep)) (metric p).sum f) ps
  dropped : ∀ (j : ℕ) (metric : PartitionMetrics → PM), (∀ p ∈ ps, p.errors[j]? = some (metric p)) → ∀ u, r.2[j]? = some u →
    (ps.map fun p => (metric p).sum).sum ≠ 0 →
    ∀ f, u.dropped f = (ps.map fun p => dataDropped (metric p) (if isPublic then 1 else p.keep) f).sum /
      (ps.map fun p => (metric p).sum).sum
  noise : ∀ (j : ℕ) (st : ℝ), (∀ p ∈ ps, ∃ m, p.errors[j]? = some m ∧ m.stdNoise = st) → ∀ u, r.2[j]? = some u → u.noiseStd = st

/-- The metrics of configuration `i` in the partitions whose number of privacy ids is in `Q`. -/
noncomputable def crossOf (i : ℕ) (Q : ℕ → Prop) [DecidablePred Q]
    (perPartition : List ((K × ℕ) × Reports.PartitionMetrics PM)) : List PartitionMetrics :=
  ((perPartition.filter fun e => e.1.2 = i ∧ Q e.2.ids).map fun e => crossInput e.2)

instance (lo : ℕ) (hi : ℤ) : DecidablePred (Reports.InBucket lo hi) := fun n => by unfold Reports.InBucket; infer_instance

/-- The users of partition `k` with their data, none if the partition is not sampled. -/
def usersData (p : Engine.Params) (keep : K → Bool) (pub : Option (List K)) (rows : List (P × K × Val)) (k : K) : List Data :=
  (if keep k then usersIn k (relevant pub rows) else []).map (userData p.performCross (relevant pub rows) k)

/-! ### Averages -/

theorem leaves_ne_nil {A : Type} (t : MergeTree A) : t.leaves ≠ [] := by
  induction t with
  | leaf p => simp [MergeTree.leaves]
  | node l r ih _ => simp [MergeTree.leaves, ih]

theorem tree_of_map {A B : Type} (f : A → B) : ∀ (t : MergeTree B) (l : List A), t.leaves = l.map f →
    ∃ t' : MergeTree A, t'.leaves = l ∧ t = t'.map f
  | .leaf b, l, h => by
    match l, h with
    | [a], h => exact ⟨.leaf a, rfl, by simp only [MergeTree.leaves, List.map_cons, List.map_nil, List.cons.injEq] at h; rw [h.1]; rfl⟩
  | .node t1 t2, l, h => by
    rw [MergeTree.leaves] at h
    obtain ⟨l1, l2, rfl, h1, h2⟩ := List.append_eq_map_iff.mp h
    obtain ⟨s1, a1, rfl⟩ := tree_of_map f t1 l1 h1.symm
    obtain ⟨s2, a2, rfl⟩ := tree_of_map f t2 l2 h2.symm
    exact ⟨.node s1 s2, by simp [MergeTree.leaves, a1, a2], rfl⟩

theorem perm_map_lift {A B : Type} (f : A → B) {l : List B} {l' : List A} (h : l.Perm (l'.map f)) :
    ∃ l'' : List A, l''.Perm l' ∧ l = l''.map f := by
  generalize hm : l'.map f = m at h
  induction h generalizing l' with
  | nil => exact ⟨[], by simp at hm; rw [hm], rfl⟩
  | cons x _ ih =>
    obtain ⟨a, r, rfl, rfl, hr⟩ := List.map_eq_cons_iff.mp hm
    obtain ⟨l'', h1, rfl⟩ := ih hr
    exact ⟨a :: l'', h1.cons a, rfl⟩
  | swap x y l =>
    obtain ⟨a, r, rfl, rfl, hr⟩ := List.map_eq_cons_iff.mp hm
    obtain ⟨b, r', rfl, rfl, hr'⟩ := List.map_eq_cons_iff.mp hr
    exact ⟨b :: a :: r', List.Perm.swap _ _ _, by simp [hr']⟩
  | trans _ _ ih1 ih2 =>
    obtain ⟨l2, h2, rfl⟩ := ih2 hm
    obtain ⟨l1, h1, rfl⟩ := ih1 rfl
    exact ⟨l1, h1.trans h2, rfl⟩

theorem noise_eval (isPublic : Bool) (weight : PartitionMetrics → ℝ) (j : ℕ) (st : ℝ) : ∀ (t : MergeTree PartitionMetrics),
    (∀ p ∈ t.leaves, ∃ m, p.errors[j]? = some m ∧ m.stdNoise = st) →
    ∃ u, ((t.map (crossCreate isPublic weight)).eval crossMerge).errors[j]? = some u ∧ u.noiseStd = st
  | .leaf p, h => by
    obtain ⟨m, h1, h2⟩ := h p (by simp [MergeTree.leaves])
    exact ⟨metricUtility (if isPublic then 1 else p.keep) (weight p) m,
      by simp [MergeTree.map, MergeTree.eval, crossCreate, h1], h2⟩
  | .node l r, h => by
    obtain ⟨u, h1, h2⟩ := noise_eval isPublic weight j st l fun p hp => h p (by simp [MergeTree.leaves, hp])
    obtain ⟨v, h3, h4⟩ := noise_eval isPublic weight j st r fun p hp => h p (by simp [MergeTree.leaves, hp])
    refine ⟨u.merge v, ?_, h2⟩
    simp [MergeTree.map, MergeTree.eval, crossMerge, List.getElem?_zipWith, h1, h3]

theorem weightedMean_perm {A : Type} (w x : A → ℝ) {l l' : List A} (h : l.Perm l') : weightedMean w x l = weightedMean w x l' := by
  unfold weightedMean
  rw [(h.map w).sum_eq, (h.map fun a => w a * x a).sum_eq]

theorem SummarisesCross.perm {isPublic : Bool} {ps ps' : List PartitionMetrics} {r} (h : SummarisesCross isPublic ps r) (hp : ps.Perm ps') :
    SummarisesCross isPublic ps' r where
  publicPartitions hi := by rw [← hp.countP_eq, ← hp.countP_eq]; exact h.publicPartitions hi
  privatePartitions hi := by
    rw [← hp.length_eq, ← (hp.map _).sum_eq, ← (hp.map _).sum_eq]; exact h.privatePartitions hi
  metrics k hk := h.metrics k fun p hp' => hk p (hp.mem_iff.1 hp')
  absolute j metric hm u hu f := by
    rw [← weightedMean_perm _ _ hp]; exact h.absolute j metric (fun p hp' => hm p (hp.mem_iff.1 hp')) u hu f
  relative j metric hm u hu f := by
    rw [← weightedMean_perm _ _ hp]; exact h.relative j metric (fun p hp' => hm p (hp.mem_iff.1 hp')) u hu f
  dropped j metric hm u hu h0 f := by
    rw [← (hp.map _).sum_eq] at h0
    rw [← (hp.map _).sum_eq, ← (hp.map _).sum_eq]
    exact h.dropped j metric (fun p hp' => hm p (hp.mem_iff.1 hp')) u hu h0 f
  noise j st hm u hu := h.noise j st (fun p hp' => hm p (hp.mem_iff.1 hp')) u hu

theorem summarises_tree (isPublic : Bool) (t : MergeTree PartitionMetrics) (k : ℕ)
    (hk : ∀ p ∈ t.leaves, p.errors.length = k) : SummarisesCross isPublic t.leaves (crossReport isPublic equalWeight t) where
  publicPartitions := (C45_partitions isPublic equalWeight t k hk).1
  privatePartitions := (C45_partitions isPublic equalWeight t k hk).2
  metrics k' hk' := by
    obtain ⟨_, h1, h2, _⟩ := eval_spec isPublic equalWeight k' t hk'
    simp [crossReport, crossMetrics, h1, h2]
  absolute j metric hm u hu f := by
    obtain ⟨v, h1, h2, -⟩ := C45_average isPublic equalWeight t k j hk metric hm
    rw [hu] at h1; cases h1
    exact h2 f
  relative j metric hm u hu f := by
    obtain ⟨v, h1, -, h2, -⟩ := C45_average isPublic equalWeight t k j hk metric hm
    rw [hu] at h1; cases h1
    exact h2 f
  dropped j metric hm u hu h0 f := by
    obtain ⟨v, h1, -, -, h2⟩ := C45_average isPublic equalWeight t k j hk metric hm
    rw [hu] at h1; cases h1
    refine (h2 f).1 ?_
    exact_mod_cast h0
  noise j st hm u hu := by
    obtain ⟨v, h1, h2⟩ := noise_eval isPublic equalWeight j st t hm
    simp only [crossReport, crossMetrics, List.getElem?_zipWith, h1] at hu
    split at hu
    · rename_i a b h3 h4
      cases h4; cases hu; exact h2
    · cases hu

theorem summarises_from (isPublic : Bool) (i k : ℕ) (ps : List (K × List (Reports.PartitionMetrics PM)))
    (hk : ∀ p ∈ ps, ∀ m, p.2[i]? = some m → m.errors.length = k) {r : PartitionsInfo × List MetricUtility}
    (h : Reports.From (fun m => crossCreate isPublic equalWeight (crossInput m)) crossMerge crossMetrics i ps r) :
    SummarisesCross isPublic ((ps.filterMap fun p => p.2[i]?).map crossInput) r := by
  obtain ⟨t, hp, rfl⟩ := h
  have hfm : (ps.filterMap fun p => p.2[i]?.map fun m => crossCreate isPublic equalWeight (crossInput m))
      = (((ps.filterMap fun p => p.2[i]?).map crossInput).map (crossCreate isPublic equalWeight)) := by
    rw [List.map_map, List.map_filterMap]; rfl
  rw [hfm] at hp
  obtain ⟨l, hl, hlm⟩ := perm_map_lift _ hp
  obtain ⟨t', ht, rfl⟩ := tree_of_map _ t l hlm
  have hkl : ∀ p ∈ t'.leaves, p.errors.length = k := by
    intro p hp'
    rw [ht, hl.mem_iff] at hp'
    obtain ⟨m, hm, rfl⟩ := List.mem_map.mp hp'
    obtain ⟨q, hq, hqm⟩ := List.mem_filterMap.mp hm
    exact hk q hq m hqm
  have := summarises_tree isPublic t' k hkl
  exact this.perm (ht ▸ hl)

/-! ### The combiners -/

theorem mem_asked {isPublic : Bool} {metrics : List Engine.Metric} {p : Engine.Params} {sums : List (Option ℚ × Option ℚ)}
    {x : Kind × Engine.Params} (h : x ∈ asked isPublic metrics p sums) :
    (isPublic = false ∧ x = (.selection, p)) ∨
    (Engine.Metric.sum ∈ metrics ∧ ∃ b i, b ∈ sums ∧ i < sums.length ∧
      x = (.sum (if sums.length = 1 then none else some i), { p with minSum := b.1, maxSum := b.2 })) ∨
    x = (.count, p) ∨ x = (.idCount, p) := by
  unfold asked at h
  simp only [List.mem_append] at h
  rcases h with ((h | h) | h) | h
  · left; cases isPublic <;> simp_all
  · right; left
    split at h
    · rename_i hm
      obtain ⟨⟨b, i⟩, hb, rfl⟩ := List.mem_map.mp h
      obtain ⟨-, h2, h3⟩ := List.mem_zipIdx hb
      exact ⟨hm, b, i, by rw [h3]; exact List.getElem_mem _, by simpa using h2, rfl⟩
    · simp at h
  · right; right; left; split at h <;> simp_all
  · right; right; right; split at h <;> simp_all

theorem asked_length_eq (isPublic : Bool) (metrics : List Engine.Metric) (p p' : Engine.Params)
    {sums sums' : List (Option ℚ × Option ℚ)} (h : Engine.Metric.sum ∈ metrics → sums.length = sums'.length) :
    (asked isPublic metrics p sums).length = (asked isPublic metrics p' sums').length := by
  unfold asked
  simp only [List.length_append]
  congr 1
  · congr 1
    · congr 1
      · split <;> simp
      · split
        · rename_i hm; simp [h hm]
        · rfl
    · split <;> simp
  · split <;> simp

theorem std_ok (sigma : ℝ → ℝ → ℝ → ℝ) (e d : ℚ) (l : List (Kind × Engine.Params)) (x : Kind × Engine.Params)
    (hx : x.1 ≠ .selection) {s : Sens} {a b : ℝ} (hs : (⟨x.1, x.2, equalShare e d l x⟩ : Created).sens = .ok s)
    (h1 : s.l1 = some a) (h2 : s.l2 = some b) : ∃ st, (⟨x.1, x.2, equalShare e d l x⟩ : Created).std sigma = .ok st := by
  obtain ⟨k, p⟩ := x
  have hk : k.mechanism p = toMechType p.noiseKind.mechanism := by cases k <;> simp_all [Kind.mechanism]
  unfold Created.std
  simp only [equalShare, hk]
  cases hn : p.noiseKind
  · have := EndToEnd.additive_laplace sigma hs h1 (e := ((e / l.length : ℚ) : ℝ))
      (d := some (((if usesDelta (k, p) then d / (l.filter usesDelta).length else 0 : ℚ)) : ℝ))
    simp only [equalShare, hk, hn] at this
    simp only [NoiseKind.mechanism, toMechType] at this ⊢
    rw [this]
    exact ⟨_, rfl⟩
  · have := EndToEnd.additive_gaussian sigma hs h2 (e := ((e / l.length : ℚ) : ℝ))
      (d := (((if usesDelta (k, p) then d / (l.filter usesDelta).length else 0 : ℚ)) : ℝ))
    simp only [equalShare, hk, hn] at this
    simp only [NoiseKind.mechanism, toMechType] at this ⊢
    rw [this]
    exact ⟨_, rfl⟩

/-- What a combiner gives for a list of users. -/
def Gives (sigma : ℝ → ℝ → ℝ → ℝ) (keepOf : SelectionArgs → ℕ → ℚ) (approx : Moments → ℕ × List ℚ) (users : List Data)
    (x : Created) (it : Reports.Item PM) : Prop :=
  (x.kind = .selection → ∃ a q, x.selectionArgs = .ok a ∧ specMetric approx users (.selection a.l0 (keepOf a)) = .probability q ∧
    it = .probability q) ∧
  (x.kind ≠ .selection → ∃ cb a st, x.comb keepOf = .ok cb ∧ specMetric approx users cb = .sum a ∧ x.std sigma = .ok st ∧
    it = .errors ⟨a.metrics, st⟩)

theorem created_ok (sigma : ℝ → ℝ → ℝ → ℝ) (keepOf : SelectionArgs → ℕ → ℚ) (approx : Moments → ℕ × List ℚ)
    {isPublic : Bool} {metrics : List Engine.Metric} {p : Engine.Params} {sums : List (Option ℚ × Option ℚ)}
    (hr : Runnable metrics p sums) (e d : ℚ) {x : Created} (hx : x ∈ planned e d isPublic metrics p sums) :
    ∃ cb, x.comb keepOf = .ok cb ∧
      (cb.isSelection = true → isPublic = false) ∧
      (cb.multiColumn = true → Engine.Metric.sum ∈ metrics ∧ sums.length ≠ 1) ∧
      (∀ vs, (Engine.Metric.sum ∈ metrics → FitColumns sums.length vs) → ∀ v ∈ vs, cb.FitsValue v) ∧
      ∀ users, ∃ it, x.item sigma (specMetric approx users cb) = .ok it ∧ Gives sigma keepOf approx users x it := by
  obtain ⟨y, hy, rfl⟩ := List.mem_map.mp hx
  obtain ⟨l0, linf, hl0, hlinf, hmc, hp0, hpinf⟩ := hr.bounds
  have hbv : p.BoundsValid := .inr ⟨l0, linf, hl0, hlinf, hmc, hp0, hpinf⟩
  rcases mem_asked hy with ⟨hpub, rfl⟩ | ⟨hm, b, i, hb, hi, rfl⟩ | rfl | rfl
  · obtain ⟨a, hsa, hl⟩ : ∃ a, (⟨.selection, p, equalShare e d (asked isPublic metrics p sums) (.selection, p)⟩ :
        Created).selectionArgs = .ok a ∧ a.l0 = l0 := by
      refine ⟨⟨p.strategy, (equalShare e d (asked isPublic metrics p sums) (.selection, p)).eps.getD 0,
        (equalShare e d (asked isPublic metrics p sums) (.selection, p)).delta.getD 0, l0, p.preThreshold⟩, ?_, rfl⟩
      simp only [Created.selectionArgs, Option.getD_some, equalShare, computed, failing, hp0, natArg, bind, Except.bind, pure, Except.pure]
    have hcomb : (⟨.selection, p, equalShare e d (asked isPublic metrics p sums) (.selection, p)⟩ : Created).comb keepOf
        = .ok (.selection a.l0 (keepOf a)) := by
      simp only [Created.comb, hsa, bind, Except.bind, pure, Except.pure]
    refine ⟨_, hcomb, fun _ => hpub, by simp [Comb.multiColumn], fun _ _ _ _ => trivial, fun users => ?_⟩
    obtain ⟨q, hq⟩ : ∃ q, specMetric approx users (.selection a.l0 (keepOf a)) = .probability q := by
      unfold specMetric; dsimp only; split <;> exact ⟨_, rfl⟩
    rw [hq]
    exact ⟨_, rfl, fun _ => ⟨a, q, hsa, hq, rfl⟩, fun h => absurd rfl h⟩
  · obtain ⟨hmv, hbs⟩ := hr.sums hm
    obtain ⟨lo, hi', rfl, hne⟩ := hbs b hb
    have hbv' : ({ p with minSum := some lo, maxSum := some hi' } : Engine.Params).BoundsValid := hbv
    obtain ⟨s, hs, h1, h2⟩ := EndToEnd.sensSum_partition_val hbv' hmc rfl rfl hmv hne
    obtain ⟨st, hst⟩ := std_ok sigma e d (asked isPublic metrics p sums)
      (.sum (if sums.length = 1 then none else some i), { p with minSum := some lo, maxSum := some hi' }) (by simp) hs h1 h2
    have hcomb : (⟨.sum (if sums.length = 1 then none else some i), { p with minSum := some lo, maxSum := some hi' },
        equalShare e d (asked isPublic metrics p sums)
          (.sum (if sums.length = 1 then none else some i), { p with minSum := some lo, maxSum := some hi' })⟩ : Created).comb keepOf
        = .ok (.sum (if sums.length = 1 then none else some i) lo hi' l0) := by
      simp only [Created.comb, failing, hp0, natArg, Engine.num, bind, Except.bind, pure, Except.pure]
    refine ⟨_, hcomb, by simp [Comb.isSelection], fun h => ⟨hm, fun h1 => ?_⟩, fun vs hvs v hv => ?_, fun users => ?_⟩
    · rw [if_pos h1] at h; simp [Comb.multiColumn] at h
    · have hf := hvs hm
      unfold FitColumns at hf
      split at hf
      · rename_i h1; rw [if_pos h1]; exact hf v hv
      · rename_i h1; rw [if_neg h1]
        obtain ⟨xs, h2, h3⟩ := hf v hv
        exact ⟨xs, h2, by rw [h3]; exact hi⟩
    · refine ⟨_, by simp only [Created.item, specMetric, hst], fun h => ?_, fun _ => ⟨_, _, st, hcomb, rfl, hst, rfl⟩⟩
      simp at h
  · obtain ⟨s, hs, h1, h2⟩ := EndToEnd.sensCount_val hbv
    obtain ⟨st, hst⟩ := std_ok sigma e d (asked isPublic metrics p sums) (.count, p) (by simp) hs h1 h2
    have hcomb : (⟨.count, p, equalShare e d (asked isPublic metrics p sums) (.count, p)⟩ : Created).comb keepOf
        = .ok (.count linf l0) := by
      simp only [Created.comb, failing, hp0, hpinf, natArg, bind, Except.bind, pure, Except.pure]
    refine ⟨_, hcomb, by simp [Comb.isSelection], by simp [Comb.multiColumn], fun _ _ _ _ => trivial, fun users => ?_⟩
    refine ⟨_, by simp only [Created.item, specMetric, hst], fun h => ?_, fun _ => ⟨_, _, st, hcomb, rfl, hst, rfl⟩⟩
    simp at h
  · obtain ⟨s, hs, h1, h2⟩ := EndToEnd.sensPid_val hbv
    obtain ⟨st, hst⟩ := std_ok sigma e d (asked isPublic metrics p sums) (.idCount, p) (by simp) hs h1 h2
    have hcomb : (⟨.idCount, p, equalShare e d (asked isPublic metrics p sums) (.idCount, p)⟩ : Created).comb keepOf
        = .ok (.idCount l0) := by
      simp only [Created.comb, failing, hp0, natArg, bind, Except.bind, pure, Except.pure]
    refine ⟨_, hcomb, by simp [Comb.isSelection], by simp [Comb.multiColumn], fun _ _ _ _ => trivial, fun users => ?_⟩
    refine ⟨_, by simp only [Created.item, specMetric, hst], fun h => ?_, fun _ => ⟨_, _, st, hcomb, rfl, hst, rfl⟩⟩
    simp at h

/-- At most the first combiner selects partitions. -/
theorem planned_selections (e d : ℚ) (isPublic : Bool) (metrics : List Engine.Metric) (p : Engine.Params)
    (sums : List (Option ℚ × Option ℚ)) :
    ((planned e d isPublic metrics p sums).filter fun x => x.kind = .selection).length ≤ 1 := by
  unfold planned
  rw [List.filter_map, List.length_map]
  simp only [Function.comp_def]
  unfold asked
  simp only [List.filter_append, List.length_append]
  have h1 : (List.filter (fun x : Kind × Engine.Params => decide (x.1 = .selection))
      (if isPublic then [] else [(.selection, p)])).length ≤ 1 := by cases isPublic <;> simp
  have h2 : (List.filter (fun x : Kind × Engine.Params => decide (x.1 = .selection)) (if .sum ∈ metrics then
      sums.zipIdx.map fun x =>
        (.sum (if sums.length = 1 then none else some x.2), { p with minSum := x.1.1, maxSum := x.1.2 })
      else [])) = [] := by
    rw [List.filter_eq_nil_iff]
    intro x hx
    split at hx
    · obtain ⟨y, _, rfl⟩ := List.mem_map.mp hx; simp
    · simp at hx
  have h3 : (List.filter (fun x : Kind × Engine.Params => decide (x.1 = .selection))
      (if .count ∈ metrics then [(.count, p)] else [])) = [] := by split <;> simp
  have h4 : (List.filter (fun x : Kind × Engine.Params => decide (x.1 = .selection))
      (if .privacyIdCount ∈ metrics then [(.idCount, p)] else [])) = [] := by split <;> simp
  rw [h2, h3, h4]
  simpa using h1

def itemProbability : Reports.Item PM → Option ℚ
  | .probability p => some p
  | .errors _ => none

def itemErrors : Reports.Item PM → Option PM
  | .probability _ => none
  | .errors e => some e

theorem gives_filter {sigma : ℝ → ℝ → ℝ → ℝ} {keepOf : SelectionArgs → ℕ → ℚ} {approx : Moments → ℕ × List ℚ}
    {users : List Data} {created : List Created} {block : List (Reports.Item PM)}
    (h : List.Forall₂ (Gives sigma keepOf approx users) created block) :
    List.Forall₂ (fun x q => ∃ a, x.selectionArgs = .ok a ∧
        specMetric approx users (.selection a.l0 (keepOf a)) = .probability q) (created.filter fun x => x.kind = .selection)
      (block.filterMap itemProbability) ∧
    List.Forall₂ (fun x err => ∃ cb a st, x.comb keepOf = .ok cb ∧ specMetric approx users cb = .sum a ∧
        x.std sigma = .ok st ∧ err = ⟨a.metrics, st⟩) (created.filter fun x => x.kind ≠ .selection)
      (block.filterMap itemErrors) := by
  induction h with
  | nil => exact ⟨.nil, .nil⟩
  | @cons x it l l' hx _ ih =>
    by_cases hk : x.kind = .selection
    · obtain ⟨a, q, h1, h2, rfl⟩ := hx.1 hk
      simp only [List.filter_cons, hk, decide_true, if_true, List.filterMap_cons, itemProbability, itemErrors, ne_eq, not_true_eq_false, decide_false]
      exact ⟨.cons ⟨a, h1, h2⟩ ih.1, ih.2⟩
    · obtain ⟨cb, a, st, h1, h2, h3, rfl⟩ := hx.2 hk
      simp only [List.filter_cons, hk, decide_false, List.filterMap_cons, itemProbability, itemErrors, ne_eq, not_false_eq_true, decide_true, if_true]
      exact ⟨ih.1, .cons ⟨cb, a, st, h1, h2, h3, rfl⟩ ih.2⟩

theorem describes_of {sigma : ℝ → ℝ → ℝ → ℝ} {keepOf : SelectionArgs → ℕ → ℚ} {approx : Moments → ℕ × List ℚ}
    {users : List Data} {created : List Created} {block : List (Reports.Item PM)}
    (h : List.Forall₂ (Gives sigma keepOf approx users) created block)
    (h1 : (created.filter fun x => x.kind = .selection).length ≤ 1) {m : Reports.PartitionMetrics PM}
    (hm : Reports.IsPacked users.length (users.map Data.count).sum block m) : DescribedBy sigma keepOf approx users created m := by
  obtain ⟨g1, g2⟩ := gives_filter h
  obtain ⟨m1, m2, m3, m4⟩ := hm
  replace m3 : m.errors = block.filterMap itemErrors := by rw [m3]; congr 1; funext x; cases x <;> rfl
  replace m4 : m.keep = ((block.filterMap itemProbability).getLast?).getD 1 := by
    rw [m4]; congr 3; funext x; cases x <;> rfl
  refine ⟨m1, m2, fun hn => ?_, fun x hx hk => ?_, by rw [m3]; exact g2⟩
  · have : (created.filter fun x => x.kind = .selection) = [] := by
      rw [List.filter_eq_nil_iff]; intro x hx; simpa using hn x hx
    rw [this] at g1
    rw [m4]
    rw [List.forall₂_nil_left_iff.mp g1]
    rfl
  · have hmem : x ∈ created.filter fun x => x.kind = .selection := List.mem_filter.mpr ⟨hx, by simpa using hk⟩
    match hc : created.filter fun x => x.kind = .selection with
    | [] => rw [hc] at hmem; simp at hmem
    | [y] =>
      rw [hc] at hmem g1
      simp only [List.mem_singleton] at hmem
      subst hmem
      obtain ⟨q, r, hq, hr, he⟩ := List.forall₂_cons_left_iff.mp g1
      rw [List.forall₂_nil_left_iff.mp hr] at he
      obtain ⟨a, ha1, ha2⟩ := hq
      refine ⟨a, ha1, ?_⟩
      rw [m4, he]
      simpa using ha2
    | y :: z :: r => rw [hc] at h1; simp at h1

/-! ### Plugging together -/

theorem mapM_exists {α β ε : Type} {f : α → Except ε β} {Q : α → β → Prop} : ∀ {l : List α},
    (∀ a ∈ l, ∃ b, f a = .ok b ∧ Q a b) → ∃ r, l.mapM f = .ok r ∧ List.Forall₂ Q l r
  | [], _ => ⟨[], rfl, .nil⟩
  | a :: l, h => by
    obtain ⟨b, h1, h2⟩ := h a (by simp)
    obtain ⟨r, h3, h4⟩ := mapM_exists (l := l) fun x hx => h x (by simp [hx])
    exact ⟨b :: r, by rw [List.mapM_cons, h1, h3]; rfl, .cons h2 h4⟩

theorem reports_nil {E A R : Type} (O : Ops) (hO : O.Lawful) (create : Reports.PartitionMetrics E → A) (merge : A → A → A)
    (compute : A → R) : Reports.reports O create merge compute ([] : List (K × List (Reports.PartitionMetrics E))) = [] := by
  have h1 : O.reducePerKey merge ([] : List ((ℕ × Option ℕ) × A)) = [] := by
    rw [List.eq_nil_iff_forall_not_mem]
    intro e he
    have := ((hO.reduce merge ([] : List ((ℕ × Option ℕ) × A))).keys e.1).mp (List.mem_map.mpr ⟨e, he, rfl⟩)
    simp at this
  have h2 : O.group ([] : List (ℕ × (Option ℕ × R))) = [] := by
    rw [List.eq_nil_iff_forall_not_mem]
    intro e he
    have := ((hO.group ([] : List (ℕ × (Option ℕ × R)))).keys e.1).mp (List.mem_map.mpr ⟨e, he, rfl⟩)
    simp at this
  simp [Reports.reports, h1, h2]

/-- The metrics of the partitions, one element per partition and configuration. -/
def perPartitionOf (packed : List (K × List (Reports.PartitionMetrics PM))) : List ((K × ℕ) × Reports.PartitionMetrics PM) :=
  packed.flatMap fun e => e.2.zipIdx.map fun x => ((e.1, x.2), x.1)

theorem mem_perPartitionOf {packed : List (K × List (Reports.PartitionMetrics PM))} {k : K} {i : ℕ} {m} :
    ((k, i), m) ∈ perPartitionOf packed ↔ ∃ e ∈ packed, e.1 = k ∧ e.2[i]? = some m := by
  unfold perPartitionOf
  rw [List.mem_flatMap]
  constructor
  · rintro ⟨e, he, h⟩
    obtain ⟨⟨m', j⟩, hx, h2⟩ := List.mem_map.mp h
    simp only [Prod.mk.injEq] at h2
    obtain ⟨⟨rfl, rfl⟩, rfl⟩ := h2
    exact ⟨e, he, rfl, by simpa [List.mem_zipIdx_iff_getElem?] using hx⟩
  · rintro ⟨e, he, rfl, h⟩
    exact ⟨e, he, List.mem_map.mpr ⟨(m, i), by simpa [List.mem_zipIdx_iff_getElem?] using h, rfl⟩⟩

theorem nodup_perPartitionOf {packed : List (K × List (Reports.PartitionMetrics PM))} (h : (packed.map Prod.fst).Nodup) :
    ((perPartitionOf packed).map Prod.fst).Nodup := by
  induction packed with
  | nil => simp [perPartitionOf]
  | cons e packed ih =>
    simp only [List.map_cons, List.nodup_cons] at h
    have hs : perPartitionOf (e :: packed) = (e.2.zipIdx.map fun x => ((e.1, x.2), x.1)) ++ perPartitionOf packed := by
      simp [perPartitionOf]
    rw [hs, List.map_append, List.nodup_append]
    refine ⟨?_, ih h.2, ?_⟩
    · rw [List.map_map]
      have : (e.2.zipIdx.map (Prod.fst ∘ fun x => ((e.1, x.2), x.1))) = (List.range e.2.length).map fun i => (e.1, i) := by
        rw [List.range_eq_range', ← List.zipIdx_map_snd 0 e.2, List.map_map]
        rfl
      rw [this]
      exact List.nodup_range.map fun a b hab => by simpa using hab
    · intro a ha b hb hab
      subst hab
      obtain ⟨x, hx, rfl⟩ := List.mem_map.mp ha
      obtain ⟨y, hy, rfl⟩ := List.mem_map.mp hx
      obtain ⟨⟨⟨k, i⟩, m⟩, hz, hze⟩ := List.mem_map.mp hb
      obtain ⟨e', he', hk, -⟩ := mem_perPartitionOf.mp hz
      simp only [Prod.mk.injEq] at hze
      exact h.1 (List.mem_map.mpr ⟨e', he', by rw [hk, hze.1]⟩)

theorem filter_zipIdx {M : Type} (i : ℕ) (k : K) (ms : List M) : ∀ s,
    ((ms.zipIdx s).map (fun x => ((k, x.2), x.1))).filter (fun e => decide (e.1.2 = i))
      = (if s ≤ i then ms[i - s]? else none).toList.map fun m => ((k, i), m) := by
  induction ms with
  | nil => intro s; simp
  | cons m ms ih =>
    intro s
    rw [List.zipIdx_cons, List.map_cons, List.filter_cons, ih]
    rcases Nat.lt_trichotomy s i with h | h | h
    · have h1 : i - s = (i - (s + 1)) + 1 := by omega
      simp [h.ne, h.le, Nat.succ_le_of_lt h, h1]
    · subst h; simp
    · have h1 : ¬ s ≤ i := by omega
      have h2 : ¬ s + 1 ≤ i := by omega
      simp [h.ne', h1, h2]

theorem crossOf_eq (i : ℕ) (Q : ℕ → Prop) [DecidablePred Q] (packed : List (K × List (Reports.PartitionMetrics PM))) :
    crossOf i Q (perPartitionOf packed)
      = ((packed.filterMap fun e => e.2[i]?).filter fun m => Q m.ids).map crossInput := by
  unfold crossOf perPartitionOf
  induction packed with
  | nil => simp
  | cons e packed ih =>
    rw [List.flatMap_cons, List.filter_append, List.map_append, ih, List.filterMap_cons]
    have h := filter_zipIdx i e.1 e.2 0
    simp only [Nat.zero_le, if_true, Nat.sub_zero] at h
    have h2 : (e.2.zipIdx.map fun x => ((e.1, x.2), x.1)).filter (fun e => decide (e.1.2 = i ∧ Q e.2.ids))
        = ((e.2[i]?.toList).map fun m => ((e.1, i), m)).filter (fun e => decide (Q e.2.ids)) := by
      rw [← h, List.filter_filter]
      congr 1
      funext x
      rw [Bool.decide_and, Bool.and_comm]
    rw [h2]
    cases e.2[i]? with
    | none => simp
    | some m => by_cases hq : Q m.ids <;> simp [hq]

theorem filterMap_filter_size (i : ℕ) (Q : ℕ → Prop) [DecidablePred Q] (packed : List (K × List (Reports.PartitionMetrics PM)))
    (h : ∀ e ∈ packed, ∀ m, e.2[i]? = some m → m.ids = Reports.size e.2) :
    ((packed.filter fun e => Q (Reports.size e.2)).filterMap fun e => e.2[i]?)
      = (packed.filterMap fun e => e.2[i]?).filter fun m => Q m.ids := by
  induction packed with
  | nil => rfl
  | cons e packed ih =>
    have ih := ih fun x hx => h x (by simp [hx])
    have he := h e (by simp)
    rw [List.filter_cons, List.filterMap_cons]
    cases hm : e.2[i]? with
    | none => split <;> simp [hm, ih]
    | some m =>
      rw [← he m hm]
      by_cases hq : Q m.ids <;> simp [hq, hm, ih]

/-- The options of the analysis with the parameters `l` of the configurations, budget `(e, d)` and values `vs` of the rows are
supported. -/
structure AnalysableBy (e d : ℚ) (p : Engine.Params) (c : Option (Multi NoiseKind Strategy)) (isPublic : Bool)
    (l : List (Config.Params NoiseKind Strategy Engine.Params × List (Option ℚ × Option ℚ))) (vs : List Val) : Prop where
  metrics : ∀ m ∈ p.metrics, m = .count ∨ m = .sum ∨ m = .privacyIdCount
  notEnforced : p.boundsEnforced = false
  thresholding : p.postThresholding = false
  configurations : allParams (blueprint p) c = .ok l
  sameKind : ∀ m, c = some m → SameKind m.minSum m.maxSum
  strategies : ∀ m, c = some m → isPublic = false → m.strategy ≠ some []
  delta : (∃ x ∈ l, (ofConfig x.1).noiseKind = .gaussian) → 0 < d
  runnable : ∀ x ∈ l, Runnable p.metrics (ofConfig x.1) x.2
  columns : Engine.Metric.sum ∈ p.metrics → ∃ k, (isPublic = true → k = 1) ∧ FitColumns k vs ∧ ∀ x ∈ l, x.2.length = k
  shape : SameShape vs

theorem AnalysableBy.check {e d : ℚ} {p : Engine.Params} {c} {isPublic : Bool} {l vs} (h : AnalysableBy e d p c isPublic l vs) :
    checkOptions p = .ok () := by
  have h1 : p.metrics.any (fun m => !(m == .count || m == .sum || m == .privacyIdCount)) = false := by
    rw [List.any_eq_false]
    intro m hm
    rcases h.metrics m hm with rfl | rfl | rfl <;> decide
  unfold checkOptions
  rw [h1]
  simp [h.notEnforced, h.thresholding]

theorem AnalysableBy.size {e d : ℚ} {p : Engine.Params} {c} {isPublic : Bool} {l vs} (h : AnalysableBy e d p c isPublic l vs) :
    nConfigurations c = .ok l.length ∧ l ≠ [] ∧
      (isPublic = false → Config.strategies (blueprint p) c = .ok (l.map fun x => x.1.strategy)) := by
  have hl := h.configurations
  cases c with
  | none =>
    simp only [allParams, Except.ok.injEq] at hl
    subst hl
    exact ⟨rfl, by simp, fun _ => rfl⟩
  | some m =>
    cases hc : m.check with
    | error x => simp only [allParams, hc] at hl; cases hl
    | ok n =>
      obtain ⟨l', h1, h2, h3, h4⟩ := Config.C55_all m n hc (h.sameKind m rfl) (blueprint p)
      rw [hl] at h1
      cases h1
      have hpos := (Config.C55_lengths m n hc).1
      refine ⟨by simp [nConfigurations, failing, hc, h2], fun h0 => ?_, fun hp => h4 (h.strategies m rfl hp)⟩
      rw [h0] at h2; simp at h2; omega

theorem AnalysableBy.created {e d : ℚ} {p : Engine.Params} {c} {isPublic : Bool} {l vs} (h : AnalysableBy e d p c isPublic l vs)
    {s0} (h0 : Budget.init e d none none = .ok s0) :
    createCombiners s0 isPublic p c = .ok (l.map fun x => planned e d isPublic p.metrics (ofConfig x.1) x.2) := by
  unfold createCombiners
  rw [h.configurations]
  dsimp only
  apply EndToEnd.mapM_ok'
  intro x hx
  refine C65_configuration_budget h0 _ fun hd y hy _ hg => ?_
  have : (ofConfig x.1).noiseKind = .gaussian := by
    rcases mem_asked hy with ⟨_, rfl⟩ | ⟨_, b, i, _, _, rfl⟩ | rfl | rfl <;> exact hg
  have := h.delta ⟨x, hx, this⟩
  rw [hd] at this
  exact lt_irrefl _ this

/-- The result of a combiner which can be created. -/
def combOf (keepOf : SelectionArgs → ℕ → ℚ) (x : Created) : Comb :=
  match x.comb keepOf with
  | .ok cb => cb
  | .error _ => .raw

theorem pack_partition (sigma : ℝ → ℝ → ℝ → ℝ) (keepOf : SelectionArgs → ℕ → ℚ) (approx : Moments → ℕ × List ℚ)
    (users : List Data) (created : List (List Created)) (hne : created ≠ []) (k : ℕ) (hk : ∀ b ∈ created, b.length = k)
    (hsel : ∀ b ∈ created, (b.filter fun x => x.kind = .selection).length ≤ 1)
    (hok : ∀ b ∈ created, ∀ x ∈ b, ∃ it, x.item sigma (specMetric approx users (combOf keepOf x)) = .ok it ∧
      Gives sigma keepOf approx users x it) :
    ∃ ms, packPartition sigma created.flatten created.length
        ((Comb.raw :: created.flatten.map (combOf keepOf)).map (specMetric approx users)) = .ok ms ∧
      List.Forall₂ (DescribedBy sigma keepOf approx users) created ms := by
  classical
  have hch : ∀ x : Created, ∃ it, (∃ b ∈ created, x ∈ b) → x.item sigma (specMetric approx users (combOf keepOf x)) = .ok it ∧
      Gives sigma keepOf approx users x it := by
    intro x
    by_cases hx : ∃ b ∈ created, x ∈ b
    · obtain ⟨b, hb, hxb⟩ := hx
      obtain ⟨it, h⟩ := hok b hb x hxb
      exact ⟨it, fun _ => h⟩
    · exact ⟨.probability 0, fun h => absurd h hx⟩
  choose g hg using hch
  have hitems : ((created.flatten.zip ((created.flatten.map (combOf keepOf)).map (specMetric approx users))).mapM
      fun x => x.1.item sigma x.2) = .ok (created.flatten.map g) := by
    have hz : created.flatten.zip ((created.flatten.map (combOf keepOf)).map (specMetric approx users))
        = created.flatten.map fun x => (x, specMetric approx users (combOf keepOf x)) := by
      rw [List.map_map, List.zip_map_right]
      generalize created.flatten = fl
      induction fl with
      | nil => rfl
      | cons a fl ih => simp [ih]
    rw [hz, List.mapM_map]
    apply EndToEnd.mapM_ok'
    intro x hx
    obtain ⟨b, hb, hxb⟩ := List.mem_flatten.mp hx
    exact (hg x ⟨b, hb, hxb⟩).1
  obtain ⟨ms, h1, h2⟩ := Reports.C56_pack users.length (users.map Data.count).sum k (created.map fun b => b.map g)
    (by simpa using hne) (by
      intro b hb
      obtain ⟨b', hb', rfl⟩ := List.mem_map.mp hb
      rw [List.length_map]; exact hk b' hb')
  refine ⟨ms, ?_, ?_⟩
  · rw [List.map_cons]
    simp only [specMetric, packPartition]
    rw [show ((created.flatten.zip ((created.flatten.map (combOf keepOf)).map (specMetric approx users))).mapM
      fun x => x.1.item sigma x.2) = .ok (created.flatten.map g) from hitems]
    simp only [bind, Except.bind]
    rw [List.map_flatten]
    rw [List.length_map] at h1
    rw [h1]
    rfl
  · rw [List.forall₂_map_left_iff] at h2
    have : ∀ b ∈ created, ∀ m, Reports.IsPacked users.length (users.map Data.count).sum (b.map g) m →
        DescribedBy sigma keepOf approx users b m := by
      intro b hb m hm
      refine describes_of ?_ (hsel b hb) hm
      rw [List.forall₂_map_right_iff, List.forall₂_same]
      intro x hx
      exact (hg x ⟨b, hb, hx⟩).2
    clear hk hsel hok hg hitems h1 hne
    induction h2 with
    | nil => exact .nil
    | cons hb _ ih => exact .cons (this _ (by simp) _ hb) (ih fun b hb' => this b (by simp [hb']))

theorem forall₂_mem_right {α β : Type} {R : α → β → Prop} {l : List α} {l' : List β} (h : List.Forall₂ R l l') :
    ∀ b ∈ l', ∃ a ∈ l, R a b := by
  induction h with
  | nil => simp
  | cons h1 _ ih =>
    intro b hb
    rcases List.mem_cons.mp hb with rfl | hb
    · exact ⟨_, by simp, h1⟩
    · obtain ⟨a, ha, hr⟩ := ih b hb
      exact ⟨a, by simp [ha], hr⟩

theorem forall₂_fst {α β γ : Type} {R : α × β → α × γ → Prop} {l : List (α × β)} {l' : List (α × γ)}
    (h : List.Forall₂ (fun x y => y.1 = x.1 ∧ R x y) l l') : l'.map Prod.fst = l.map Prod.fst := by
  induction h with
  | nil => rfl
  | cons h _ ih => rw [List.map_cons, List.map_cons, ih, h.1]

/-- The reports in terms of the combiners of the model; `C65_analysis_report` states them in terms of the options.  For supported options and data, for any backend, any order of merging and any sampling of partitions, the
analysis succeeds.  Every analysed partition is described once per configuration, with the size, the probability to keep it,
the errors and the noise that belong to its users and to that configuration with its budget.  There is one report per
configuration (none if there are no partitions), with its strategy if partitions are selected; it sums up all partitions, and
each of its bins, which are in increasing order, sums up exactly the partitions whose number of privacy ids is in the bin; every
partition is in exactly one bin. -/
theorem analysis_report (env : Env K) (hB : env.backend.Lawful)
    (hcomb : ∀ {A : Type} (merge : A → A → A), LawfulCombine merge (env.combine merge)) (O : Ops) (hO : O.Lawful)
    (sigma : ℝ → ℝ → ℝ → ℝ) (keepOf : SelectionArgs → ℕ → ℚ) (approx : Moments → ℕ × List ℚ) (keep : K → Bool) {e d : ℚ} {s0}
    (h0 : Budget.init e d none none = .ok s0) (p : Engine.Params) (c : Option (Multi NoiseKind Strategy))
    (pub : Option (List K)) (rows : List (P × K × Val))
    (l : List (Config.Params NoiseKind Strategy Engine.Params × List (Option ℚ × Option ℚ)))
    (ha : AnalysableBy e d p c pub.isSome l ((relevant pub rows).map fun r => r.2.2))
    (hf : p.publicFiltered = true → ∀ ps, pub = some ps → ∀ r ∈ rows, r.2.1 ∈ ps) :
    ∃ reports perPartition,
      performUtilityAnalysis env O sigma keepOf approx keep e d p c pub (.raw rows) = .ok (reports, perPartition) ∧
      (perPartition.map Prod.fst).Nodup ∧
      (∀ k i, (k, i) ∈ perPartition.map Prod.fst ↔ i < l.length ∧
        ((keep k = true ∧ ∃ r ∈ relevant pub rows, r.2.1 = k) ∨ ∃ ps, pub = some ps ∧ k ∈ ps)) ∧
      (∀ k i m x, ((k, i), m) ∈ perPartition → l[i]? = some x →
        DescribedBy sigma keepOf approx (usersData p keep pub rows k) (planned e d pub.isSome p.metrics (ofConfig x.1) x.2) m) ∧
      (perPartition = [] → reports = []) ∧
      (perPartition ≠ [] → (reports.map fun r => r.report.index).Perm (List.range l.length)) ∧
      ∀ r ∈ reports,
        (∀ x, l[r.report.index]? = some x → r.strategy = if pub.isSome then none else some x.1.strategy) ∧
        SummarisesCross pub.isSome (crossOf r.report.index (fun _ => True) perPartition) r.report.total ∧
        (r.report.bins.map fun b => b.lo).Pairwise (· < ·) ∧
        (∀ b ∈ r.report.bins,
          SummarisesCross pub.isSome (crossOf r.report.index (Reports.InBucket b.lo b.hi) perPartition) b.report) ∧
        ∀ k m, ((k, r.report.index), m) ∈ perPartition → ∃ b ∈ r.report.bins, Reports.InBucket b.lo b.hi m.ids ∧
          ∀ b' ∈ r.report.bins, Reports.InBucket b'.lo b'.hi m.ids → b' = b := by
  classical
  obtain ⟨hn, hlne, hstr⟩ := ha.size
  have hcre := ha.created h0
  set created := l.map fun x => planned e d pub.isSome p.metrics (ofConfig x.1) x.2 with hcreated
  have hcl : created.length = l.length := by simp [hcreated]
  have hcne : created ≠ [] := by simpa [hcreated] using hlne
  -- the combiners
  have hin : ∀ x ∈ created.flatten, ∃ y ∈ l, x ∈ planned e d pub.isSome p.metrics (ofConfig y.1) y.2 := by
    intro x hx
    obtain ⟨b, hb, hxb⟩ := List.mem_flatten.mp hx
    obtain ⟨y, hy, rfl⟩ := List.mem_map.mp hb
    exact ⟨y, hy, hxb⟩
  have hcombs : (created.flatten.mapM fun x => x.comb keepOf) = .ok (created.flatten.map (combOf keepOf)) := by
    apply EndToEnd.mapM_ok'
    intro x hx
    obtain ⟨y, hy, hxy⟩ := hin x hx
    obtain ⟨cb, hcb, -⟩ := created_ok sigma keepOf approx (ha.runnable y hy) e d hxy
    rw [hcb, combOf, hcb]
  set combs := Comb.raw :: created.flatten.map (combOf keepOf) with hcombsdef
  have hcb : ∀ cb ∈ combs, cb = .raw ∨ ∃ y ∈ l, ∃ x ∈ planned e d pub.isSome p.metrics (ofConfig y.1) y.2,
      x.comb keepOf = .ok cb := by
    intro cb h
    rcases List.mem_cons.mp h with rfl | h
    · exact .inl rfl
    · right
      obtain ⟨x, hx, rfl⟩ := List.mem_map.mp h
      obtain ⟨y, hy, hxy⟩ := hin x hx
      obtain ⟨cb, hcb, -⟩ := created_ok sigma keepOf approx (ha.runnable y hy) e d hxy
      exact ⟨y, hy, x, hxy, by rw [hcb, combOf, hcb]⟩
  -- the analysis of the partitions
  have hM := C64_metrics_of_the_data env.backend hB (env.combine (mergeStates combs)) combs (hcomb _) approx keep p pub rows hf
    ha.shape (by
      intro cb h r hr
      rcases hcb cb h with rfl | ⟨y, hy, x, hxy, hx⟩
      · trivial
      · obtain ⟨cb', h1, -, -, h4, -⟩ := created_ok sigma keepOf approx (ha.runnable y hy) e d hxy
        rw [hx] at h1; cases h1
        refine h4 ((relevant pub rows).map fun r => r.2.2) (fun hm => ?_) _ (List.mem_map.mpr ⟨r, hr, rfl⟩)
        obtain ⟨k, -, h2, h3⟩ := ha.columns hm
        rw [h3 y hy]; exact h2) (by
      intro hp cb h
      have hps : pub.isSome = true := Option.isSome_iff_ne_none.mpr hp
      rcases hcb cb h with rfl | ⟨y, hy, x, hxy, hx⟩
      · exact ⟨rfl, rfl⟩
      · obtain ⟨cb', h1, h2, h3, -⟩ := created_ok sigma keepOf approx (ha.runnable y hy) e d hxy
        rw [hx] at h1; cases h1
        refine ⟨?_, ?_⟩
        · by_contra hm
          obtain ⟨g1, g2⟩ := h3 (by simpa using hm)
          obtain ⟨k, g3, -, g4⟩ := ha.columns g1
          exact g2 ((g4 y hy).trans (g3 hps))
        · by_contra hm
          have := h2 (by simpa using hm)
          rw [hps] at this; cases this)
  obtain ⟨hM1, hM2, hM3⟩ := hM
  set result := analyze env.backend (env.combine (mergeStates combs)) approx combs keep p pub (.raw rows) with hresult
  -- packing
  obtain ⟨packed, hpk, hpk2⟩ : ∃ packed, packAll sigma created.flatten l.length result = .ok packed ∧
      List.Forall₂ (fun (x : K × Except Err (List Metric)) y => y.1 = x.1 ∧
        List.Forall₂ (DescribedBy sigma keepOf approx (usersData p keep pub rows x.1)) created y.2) result packed := by
    apply mapM_exists
    intro x hx
    have hx2 := hM3 x hx
    obtain ⟨y0, hy0⟩ := List.exists_mem_of_ne_nil _ hlne
    obtain ⟨ms, h1, h2⟩ := pack_partition sigma keepOf approx (usersData p keep pub rows x.1) created hcne
      (asked pub.isSome p.metrics (ofConfig y0.1) y0.2).length (by
        intro b hb
        obtain ⟨y, hy, rfl⟩ := List.mem_map.mp hb
        rw [planned, List.length_map]
        refine asked_length_eq _ _ _ _ fun hm => ?_
        obtain ⟨k, -, -, h3⟩ := ha.columns hm
        rw [h3 y hy, h3 y0 hy0]) (by
        intro b hb
        obtain ⟨y, hy, rfl⟩ := List.mem_map.mp hb
        exact planned_selections _ _ _ _ _ _) (by
        intro b hb z hz
        obtain ⟨y, hy, rfl⟩ := List.mem_map.mp hb
        obtain ⟨cb, hcb, -, -, -, h5⟩ := created_ok sigma keepOf approx (ha.runnable y hy) e d hz
        rw [combOf, hcb]
        exact h5 _)
    rw [hcl] at h1
    refine ⟨(x.1, ms), ?_, rfl, h2⟩
    rw [hx2]
    simp only [failing, bind, Except.bind]
    rw [show packPartition sigma created.flatten l.length (List.map (specMetric approx
      ((if keep x.1 then usersIn x.1 (relevant pub rows) else []).map (userData p.performCross (relevant pub rows) x.1))) combs)
      = .ok ms from h1]
    rfl
  have hdesc : ∀ y ∈ packed, List.Forall₂ (DescribedBy sigma keepOf approx (usersData p keep pub rows y.1)) created y.2 := by
    intro y hy
    obtain ⟨x, hx, h1, h2⟩ := forall₂_mem_right hpk2 y hy
    rw [h1]; exact h2
  have hplen : ∀ y ∈ packed, y.2.length = l.length := fun y hy => by rw [← (hdesc y hy).length_eq, hcl]
  have hpfst : packed.map Prod.fst = result.map Prod.fst := by
    exact forall₂_fst hpk2
  have hget : ∀ y ∈ packed, ∀ (i : ℕ) m, y.2[i]? = some m →
      ∃ x : Config.Params NoiseKind Strategy Engine.Params × List (Option ℚ × Option ℚ), l[i]? = some x ∧
      DescribedBy sigma keepOf approx (usersData p keep pub rows y.1) (planned e d pub.isSome p.metrics (ofConfig x.1) x.2) m := by
    intro y hy i m hm
    have hD := hdesc y hy
    have hi : i < l.length := by
      rw [← hplen y hy]; exact (List.getElem?_eq_some_iff.mp hm).1
    refine ⟨l[i], List.getElem?_eq_getElem hi, ?_⟩
    obtain ⟨hi2, rfl⟩ := List.getElem?_eq_some_iff.mp hm
    have := hD.get (by simpa [hcreated] using hi) hi2
    simpa [hcreated] using this
  have hids : ∀ y ∈ packed, ∀ (i : ℕ) m, y.2[i]? = some m → m.ids = Reports.size y.2 := by
    intro y hy i m hm
    obtain ⟨x, -, hx⟩ := hget y hy i m hm
    rw [hx.ids, Reports.size]
    cases hy2 : y.2 with
    | nil => rw [hy2] at hm; simp at hm
    | cons a r =>
      obtain ⟨x', -, hx'⟩ := hget y hy 0 a (by rw [hy2]; rfl)
      simp [hx'.ids]
  have herr : ∀ i : ℕ, ∃ k, ∀ y ∈ packed, ∀ m, y.2[i]? = some m → m.errors.length = k := by
    intro i
    cases hx : l[i]? with
    | none =>
      refine ⟨0, fun y hy m hm => ?_⟩
      obtain ⟨x, h1, -⟩ := hget y hy i m hm
      rw [hx] at h1; cases h1
    | some x =>
      refine ⟨((planned e d pub.isSome p.metrics (ofConfig x.1) x.2).filter fun x => x.kind ≠ .selection).length,
        fun y hy m hm => ?_⟩
      obtain ⟨x', h1, h2⟩ := hget y hy i m hm
      rw [hx] at h1; cases h1
      exact h2.errors.length_eq.symm
  -- the per-partition results
  have hkeys : ∀ k i, (k, i) ∈ (perPartitionOf packed).map Prod.fst ↔ i < l.length ∧ k ∈ result.map Prod.fst := by
    intro k i
    rw [← hpfst]
    constructor
    · intro h
      obtain ⟨⟨⟨k', i'⟩, m⟩, hx, hxe⟩ := List.mem_map.mp h
      simp only [Prod.mk.injEq] at hxe
      obtain ⟨rfl, rfl⟩ := hxe
      obtain ⟨y, hy, rfl, hm⟩ := mem_perPartitionOf.mp hx
      exact ⟨by rw [← hplen y hy]; exact (List.getElem?_eq_some_iff.mp hm).1, List.mem_map.mpr ⟨y, hy, rfl⟩⟩
    · rintro ⟨hi, h⟩
      obtain ⟨y, hy, rfl⟩ := List.mem_map.mp h
      rw [← hplen y hy] at hi
      exact List.mem_map.mpr ⟨((y.1, i), y.2[i]), mem_perPartitionOf.mpr ⟨y, hy, rfl, List.getElem?_eq_getElem hi⟩, rfl⟩
  have hpnil : perPartitionOf packed = [] ↔ packed = [] := by
    constructor
    · intro h
      by_contra hne
      obtain ⟨y, hy⟩ := List.exists_mem_of_ne_nil _ hne
      obtain ⟨z, hz⟩ := List.exists_mem_of_ne_nil _ hlne
      have := (hkeys y.1 0).mpr ⟨List.length_pos_iff.mpr hlne, by rw [← hpfst]; exact List.mem_map.mpr ⟨y, hy, rfl⟩⟩
      rw [h] at this; simp at this
    · rintro rfl; rfl
  set create := fun m => crossCreate pub.isSome equalWeight (crossInput m) with hcreate
  -- the reports
  obtain ⟨rs, hrs, hrs0, hrs1, hrs2⟩ : ∃ rs, Reports.reports O create crossMerge crossMetrics packed = rs.map some ∧
      (packed = [] → rs = []) ∧ (packed ≠ [] → (rs.map fun r => r.index).Perm (List.range l.length)) ∧
      ∀ r ∈ rs, r.index < l.length ∧ packed ≠ [] ∧
        Reports.From create crossMerge crossMetrics r.index packed r.total ∧ (r.bins.map fun b => b.lo).Pairwise (· < ·) ∧
        (∀ b ∈ r.bins, ∃ ps', List.Sublist ps' packed ∧ ps' ≠ [] ∧
          (∀ p ∈ packed, p ∈ ps' ↔ Reports.InBucket b.lo b.hi (Reports.size p.2)) ∧
          (∀ p ∈ ps', Reports.InBucket b.lo b.hi (Reports.size p.2)) ∧
          Reports.From create crossMerge crossMetrics r.index ps' b.report) ∧
        ∀ p ∈ packed, ∃ b ∈ r.bins, Reports.InBucket b.lo b.hi (Reports.size p.2) ∧
          ∀ b' ∈ r.bins, Reports.InBucket b'.lo b'.hi (Reports.size p.2) → b' = b := by
    by_cases hpne : packed = []
    · refine ⟨[], ?_, fun _ => rfl, fun h => absurd hpne h, by simp⟩
      rw [hpne]; exact reports_nil O hO _ _ _
    · obtain ⟨rs, h1, h2, h3⟩ := Reports.C56_reports O hO create crossMerge crossMetrics l.length packed hpne hplen
      refine ⟨rs, h1, fun h => absurd h hpne, fun _ => h2, fun r hr => ⟨?_, hpne, h3 r hr⟩⟩
      exact List.mem_range.mp (h2.mem_iff.mp (List.mem_map.mpr ⟨r, hr, rfl⟩))
  -- the strategies
  obtain ⟨ss, hss, hss2⟩ : ∃ ss, reportStrategies pub.isSome p c = .ok ss ∧ (pub.isSome = false → ss = l.map fun x => x.1.strategy) := by
    cases hp : pub.isSome with
    | true => exact ⟨[], rfl, by simp⟩
    | false => exact ⟨_, by simp only [reportStrategies, hstr hp]; rfl, fun _ => rfl⟩
  obtain ⟨us, hus, hus2⟩ : ∃ us, ((rs.map some).mapM (addStrategy pub.isSome ss)) = .ok us ∧
      List.Forall₂ (fun o (u : UtilityReport) => ∃ r ∈ rs, o = some r ∧ u.report = r ∧
        ∀ x, l[r.index]? = some x → u.strategy = if pub.isSome then none else some x.1.strategy) (rs.map some) us := by
    apply mapM_exists
    intro o ho
    obtain ⟨r, hr, rfl⟩ := List.mem_map.mp ho
    cases hp : pub.isSome with
    | true => exact ⟨⟨r, none⟩, rfl, r, hr, rfl, rfl, fun _ _ => rfl⟩
    | false =>
      have hi := (hrs2 r hr).1
      have hgs : ss[r.index]? = some l[r.index].1.strategy := by
        rw [hss2 hp, List.getElem?_map, List.getElem?_eq_getElem hi]; rfl
      refine ⟨⟨r, some l[r.index].1.strategy⟩, by simp [addStrategy, hgs], r, hr, rfl, rfl, fun x hx => ?_⟩
      rw [List.getElem?_eq_getElem hi] at hx
      cases hx
      rfl
  have husr : us.map (fun u => u.report) = rs := by
    have h : List.Forall₂ (fun o (u : UtilityReport) => o = some u.report) (rs.map some) us :=
      hus2.imp fun o u h => by obtain ⟨r, _, rfl, rfl, _⟩ := h; rfl
    clear hus hus2 hrs hrs0 hrs1 hrs2
    rw [List.forall₂_map_left_iff] at h
    induction h with
    | nil => rfl
    | cons h _ ih => rw [List.map_cons, ih]; cases h; rfl
  refine ⟨us, perPartitionOf packed, ?_, nodup_perPartitionOf (by rw [hpfst]; exact hM1), ?_, ?_, ?_, ?_, ?_⟩
  · simp only [performUtilityAnalysis, h0, failing, ha.check, hcre, hcombs, hn, bind, Except.bind]
    simp only [← hcombsdef, ← hresult, hpk]
    rw [hrs]
    simp only [hss, hus, pure, Except.pure]
    rfl
  · intro k i
    rw [hkeys, hM2]
  · intro k i m x hx hl
    obtain ⟨y, hy, rfl, hm⟩ := mem_perPartitionOf.mp hx
    obtain ⟨x', h1, h2⟩ := hget y hy i m hm
    rw [hl] at h1; cases h1
    exact h2
  · intro h
    have := hrs0 (hpnil.mp h)
    rw [this] at husr
    simpa using husr
  · intro h
    have h2 := hrs1 fun h' => h (hpnil.mpr h')
    rw [← husr, List.map_map] at h2
    exact h2
  · intro u hu
    obtain ⟨o, ho, r, hr, rfl, rfl, hst⟩ := forall₂_mem_right hus2 u hu
    obtain ⟨hi, hpne, hF, hpw, hbins, huniq⟩ := hrs2 u.report hr
    obtain ⟨k, hk⟩ := herr u.report.index
    refine ⟨hst, ?_, hpw, fun b hb => ?_, fun k m hm => ?_⟩
    · rw [crossOf_eq]
      have := summarises_from pub.isSome u.report.index k packed hk hF
      simpa using this
    · obtain ⟨ps', hsub, -, hmem, -, hF'⟩ := hbins b hb
      have := summarises_from pub.isSome u.report.index k ps' (fun y hy => hk y (hsub.subset hy)) hF'
      rw [crossOf_eq, ← filterMap_filter_size u.report.index (Reports.InBucket b.lo b.hi) packed
        (fun y hy => hids y hy u.report.index)]
      have hnd : packed.Nodup := List.Nodup.of_map Prod.fst (by rw [hpfst]; exact hM1)
      have hperm : ps'.Perm (packed.filter fun y => Reports.InBucket b.lo b.hi (Reports.size y.2)) := by
        rw [List.perm_ext_iff_of_nodup (hsub.nodup hnd) (hnd.filter _)]
        intro y
        rw [List.mem_filter]
        constructor
        · intro hy
          exact ⟨hsub.subset hy, by simpa using (hmem y (hsub.subset hy)).mp hy⟩
        · rintro ⟨hy, hb⟩
          exact (hmem y hy).mpr (by simpa using hb)
      exact this.perm ((hperm.filterMap _).map _)
    · obtain ⟨y, hy, rfl, hm'⟩ := mem_perPartitionOf.mp hm
      rw [hids y hy _ m hm']
      exact huniq y hy

/-! ### Non-vacuity -/

/-- Two configurations (numbers of partitions 1 and 2, strategies) of SUM and COUNT, private partitions. -/
example :
    let p : Engine.Params :=
      { metrics := [.sum, .count], maxPartitions := some 7, maxPerPartition := some 3, minSum := some 0, maxSum := some 5 }
    let c : Multi NoiseKind Strategy := { l0 := some [1, 2], strategy := some [.truncatedGeometric, .laplaceThresholding] }
    let rows : List (ℕ × Char × Val) := [(1, 'a', .scalar 2), (1, 'b', .scalar 9), (2, 'a', .scalar (-1))]
    let l := [((⟨some 1, some 3, some 0, some 5, some .laplace, .truncatedGeometric, p⟩ :
        Config.Params NoiseKind Strategy Engine.Params), [((some 0 : Option ℚ), (some 5 : Option ℚ))]),
      (⟨some 2, some 3, some 0, some 5, some .laplace, .laplaceThresholding, p⟩, [(some 0, some 5)])]
    AnalysableBy 3 (1 / 10) p (some c) false l ((relevant none rows).map fun r => r.2.2) := by
  intro p c rows l
  refine ⟨by simp [p], rfl, rfl, ?_, ?_, ?_, by norm_num, ?_, ?_, ?_⟩
  · rfl
  · intro m hm; cases hm; intro a b h; cases h
  · intro m hm; cases hm; simp [c]
  · intro x hx
    simp only [l, List.mem_cons, List.not_mem_nil, or_false] at hx
    rcases hx with rfl | rfl
    · exact ⟨⟨1, 3, by norm_num, by norm_num, rfl, rfl, rfl⟩, fun _ => ⟨rfl, by simp⟩⟩
    · exact ⟨⟨2, 3, by norm_num, by norm_num, rfl, rfl, rfl⟩, fun _ => ⟨rfl, by simp⟩⟩
  · intro _
    refine ⟨1, fun _ => rfl, ?_, by simp [l]⟩
    simp [FitColumns, relevant, rows]
  · left; simp [relevant, rows]

end PDP.Analysis
