import Verif.Analysis.TuneProps

/-!
# Property C76: the result of tuning
-/

set_option linter.unusedVariables false
set_option linter.unusedSectionVars false

namespace PDP.Analysis.Tune

open PDP
open PDP.Engine (NoiseKind LawfulCombine relevant usersIn)
open PDP.EndToEnd (Env)
open PDP.Analysis.Config (Multi allParams)
open PDP.Analysis.Tuning (Request Hists findCandidates indexBest)
open PDP.Analysis.Strategy (PyDP Selector mkSelector addStrategies Best BestSelection)

variable {P K : Type} [DecidableEq P] [DecidableEq K]

/-! ### Lemmas -/

theorem validate_ok {o : Options} {isPublic : Bool} {h : Hists} {vs : List Val} (ht : Tunable o isPublic h vs) :
    o.validate = .ok () ∧ checkArgs o isPublic = .ok () ∧
      mkSelector (o.eps : ℝ) (o.delta : ℝ) o.params.metrics isPublic =
        .ok ⟨(o.eps : ℝ), (o.delta : ℝ), o.params.metrics, isPublic⟩ := by
  refine ⟨?_, ?_, ?_⟩
  · unfold Options.validate
    have h1 : (!(o.tuneL0 || o.tuneLinf || o.tuneMinSum || o.tuneMaxSum || o.tuneNoise)) = false := by
      have := ht.something
      rw [ht.minSum, Bool.not_eq_false', ← this]
      simp
    rw [h1, if_neg (by simp), if_neg (not_le.2 ht.eps), if_neg]
    rintro (h2 | h2)
    · exact absurd ht.delta.1 (not_le.2 h2)
    · exact absurd ht.delta.2 (not_lt.2 h2)
  · unfold checkArgs
    rw [ht.minSum, ht.absolute]
    rcases hm : o.params.metrics with _ | ⟨m, ms⟩
    · have : isPublic = false := by
        by_contra hp; exact ht.publicMetrics (by simpa using hp) hm
      rw [this]; rfl
    · have := ht.metrics m (by rw [hm]; simp)
      rcases this with rfl | rfl | rfl <;> rfl
  · rcases Strategy.C47_valid (o.eps : ℝ) (o.delta : ℝ) o.params.metrics isPublic with h | h
    · exact h.1
    · refine absurd ⟨?_, ?_, ?_, ?_⟩ h.2
      · exact_mod_cast ht.eps
      · exact_mod_cast ht.delta.1
      · exact_mod_cast ht.delta.2
      · intro hp; exact_mod_cast ht.selection hp

theorem mapM_ok {E A B : Type} {f : A → Except E B} {g : A → B} : ∀ (l : List A), (∀ a ∈ l, f a = .ok (g a)) →
    l.mapM f = .ok (l.map g)
  | [], _ => rfl
  | a :: l, h => by
    rw [List.mapM_cons, h a (by simp), mapM_ok l fun x hx => h x (by simp [hx])]
    rfl

/-- The number of errors of a partition depends on the configuration only; with metrics there is one at least. -/
theorem allErrors_length (sigma : ℝ → ℝ → ℝ → ℝ) (metrics : List Engine.Metric) (s : Setting) (e d : ℝ) (users : List Data) :
    (allErrors sigma metrics s e d users).length = (if Engine.Metric.sum ∈ metrics then s.sums.length else 0) +
      (if Engine.Metric.count ∈ metrics then 1 else 0) + (if Engine.Metric.privacyIdCount ∈ metrics then 1 else 0) := by
  unfold allErrors
  rw [List.length_append, List.length_append]
  congr 1
  · congr 1
    · split <;> simp
    · split <;> simp
  · split <;> simp

theorem sorted_reports {reports : List UtilityReport} {n : ℕ} (h : (reports.map fun r => r.report.index).Perm (List.range n)) :
    let sorted := reports.insertionSort fun a b => a.report.index ≤ b.report.index
    sorted.Perm reports ∧ (sorted.map fun r => r.report.index) = List.range n := by
  intro sorted
  have hperm : sorted.Perm reports := List.perm_insertionSort _ _
  refine ⟨hperm, ?_⟩
  have hpw : (sorted.map fun r => r.report.index).Pairwise (· ≤ ·) := by
    rw [List.pairwise_map]
    have : Std.Total (fun a b : UtilityReport => a.report.index ≤ b.report.index) := ⟨fun a b => le_total _ _⟩
    have : IsTrans UtilityReport (fun a b => a.report.index ≤ b.report.index) := ⟨fun a b c h1 h2 => le_trans h1 h2⟩
    exact List.pairwise_insertionSort (fun a b : UtilityReport => a.report.index ≤ b.report.index) reports
  refine List.Perm.eq_of_pairwise (le := (· ≤ ·)) (fun a b _ _ h1 h2 => le_antisymm h1 h2) hpw List.pairwise_le_range
    ((hperm.map _).trans h)

/-- Everything up to the choice of the best candidate. -/
theorem tune_eq (env : Env K) (O : Ops) (lib : PyDP) (keepOf : SelectionArgs → ℕ → ℚ) (approx : Moments → ℕ × List ℚ)
    (keep : K → Bool) {h : Hists} {acc1 acc2 : ℕ → ℕ} {o : Options} {pub : Option (List K)} (input : Input P K) {vs : List Val}
    (ht : Tunable o pub.isSome h vs) {c0} (hc : findCandidates o.request h acc1 acc2 = .ok c0) {c}
    (hw : withStrategies lib ⟨(o.eps : ℝ), (o.delta : ℝ), o.params.metrics, pub.isSome⟩ (fixedNoise o) o.params c0 = .ok c)
    {n : ℕ} (hn : c.check = .ok n) {reports perPartition}
    (hr : performUtilityAnalysis env O lib.sigma keepOf approx keep o.eps o.delta o.params (some c) pub input =
      .ok (reports, perPartition)) :
    tune env O lib keepOf approx keep h acc1 acc2 o pub input = (convert o c n reports).map fun r => (r, perPartition) := by
  obtain ⟨h1, h2, h3⟩ := validate_ok ht
  unfold tune
  rw [h1, h2]
  change (raising TuneFail.candidates (findCandidates o.request h acc1 acc2) >>= _) = _
  rw [hc]
  change (raising TuneFail.selector (mkSelector (o.eps : ℝ) (o.delta : ℝ) o.params.metrics pub.isSome) >>= _) = _
  rw [h3]
  change (withStrategies lib ⟨(o.eps : ℝ), (o.delta : ℝ), o.params.metrics, pub.isSome⟩ (fixedNoise o) o.params c0 >>= _) = _
  rw [hw]
  change (raising TuneFail.analysis (performUtilityAnalysis env O lib.sigma keepOf approx keep o.eps o.delta o.params (some c) pub
    input) >>= _) = _
  rw [hr]
  change (raising TuneFail.config c.check >>= _) = _
  rw [hn]
  change (convert o c n reports >>= _) = _
  cases convert o c n reports <;> rfl

/-! ### The theorem -/

/-- **C76.**  Tuning with supported options, for any backend, any order of merging, any sampling of partitions, and any candidates
`c0` found in the histograms.

Between 1 and the wanted number of configurations `S` are analysed.  They have the bounds of the candidates, and each has the
noise and the strategy chosen for it.  Every partition is described under every configuration with the whole budget.  If some
partition is analysed, tuning succeeds, with one report per configuration, in the order of the configurations, each of which sums
up all partitions.  With metrics the recommended configuration is the first one with the smallest predicted error; without
metrics none is recommended.  If no partition is analysed, tuning fails with an `AssertionError`. -/
theorem C76_tune (env : Env K) (hB : env.backend.Lawful)
    (hcomb : ∀ {A : Type} (merge : A → A → A), LawfulCombine merge (env.combine merge)) (O : Ops) (hO : O.Lawful)
    (lib : PyDP) (keepOf : SelectionArgs → ℕ → ℚ) (approx : Moments → ℕ × List ℚ) (keep : K → Bool) (h : Hists)
    (acc1 acc2 : ℕ → ℕ) (o : Options) (pub : Option (List K)) (rows : List (P × K × Val))
    (ht : Tunable o pub.isSome h ((relevant pub rows).map fun r => r.2.2)) (c0 : Multi Unit Unit)
    (hc : findCandidates o.request h acc1 acc2 = .ok c0)
    (hf : o.params.publicFiltered = true → ∀ ps, pub = some ps → ∀ r ∈ rows, r.2.1 ∈ ps) :
    ∃ (c : Multi NoiseKind Engine.Strategy) (S : List Setting) (perPartition : List ((K × ℕ) × Reports.PartitionMetrics PM)),
      c.l0 = c0.l0 ∧ c.linf = c0.linf ∧ c.minSum = c0.minSum ∧ c.maxSum = c0.maxSum ∧
      1 ≤ S.length ∧ S.length ≤ o.candidates ∧
      (∀ (i : ℕ) (s : Setting), S[i]? = some s → s.IsOf o.params (some c) i ∧ Chosen lib o pub.isSome s) ∧
      (perPartition.map Prod.fst).Nodup ∧
      (∀ k i, (k, i) ∈ perPartition.map Prod.fst ↔ i < S.length ∧
        ((keep k = true ∧ ∃ r ∈ relevant pub rows, r.2.1 = k) ∨ ∃ ps, pub = some ps ∧ k ∈ ps)) ∧
      (∀ k i m (s : Setting), ((k, i), m) ∈ perPartition → S[i]? = some s →
        Describes lib.sigma keepOf approx o.eps o.delta pub.isSome o.params s (usersData o.params keep pub rows k) m) ∧
      (perPartition = [] → tune env O lib keepOf approx keep h acc1 acc2 o pub (.raw rows) = .error .assertionError) ∧
      (perPartition ≠ [] → ∃ r : Result,
        tune env O lib keepOf approx keep h acc1 acc2 o pub (.raw rows) = .ok (r, perPartition) ∧
        r.configurations = c ∧ (r.reports.map fun u => u.report.index) = List.range S.length ∧
        (∀ u ∈ r.reports,
          Summarises pub.isSome (ofConfiguration u.report.index (fun _ => True) perPartition) u.report.total ∧
          ∀ s, S[u.report.index]? = some s → u.strategy = if pub.isSome then none else some s.strategy) ∧
        (o.params.metrics = [] → r.best = none) ∧
        (o.params.metrics ≠ [] → ∃ i, r.best = some i ∧ i < S.length ∧ ∀ j < S.length,
          predictedError perPartition i ≤ predictedError perPartition j ∧
          (predictedError perPartition j = predictedError perPartition i → i ≤ j))) := by
  obtain ⟨c, S, hw, a1, a2, a3, a4, -, hck, hS1, hS2, hA, hch⟩ := settings_exist ht hc lib
  have h0 : ∃ s0, Budget.init o.eps o.delta none none = .ok s0 := by
    unfold Budget.init
    rw [if_neg (not_le.2 ht.eps), if_neg, if_neg (by simp), if_neg (by simp)]
    · exact ⟨_, rfl⟩
    · rintro (h2 | h2)
      · exact absurd ht.delta.1 (not_le.2 h2)
      · exact absurd ht.delta.2 (not_lt.2 h2)
  obtain ⟨s0, h0⟩ := h0
  obtain ⟨reports, pp, r1, r2, r3, r4, r5, r6, r7⟩ :=
    C65_analysis_report env hB hcomb O hO lib.sigma keepOf approx keep h0 o.params (some c) pub rows S hA hf
  have htune := tune_eq env O lib keepOf approx keep (.raw rows) ht hc hw hck r1
  refine ⟨c, S, pp, a1, a2, a3, a4, hS1, hS2, fun i s hs => ⟨hA.settings i s hs, (hch s (List.mem_of_getElem? hs)).1⟩, r2, r3, r4, ?_, ?_⟩
  · intro hpp
    rw [htune, r5 hpp]
    unfold convert
    rw [if_pos (by simp; omega)]
    rfl
  · intro hpp
    have hperm := r6 hpp
    have hlen : reports.length = S.length := by simpa using hperm.length_eq
    obtain ⟨hsp, hsi⟩ := sorted_reports hperm
    set sorted := reports.insertionSort fun a b => a.report.index ≤ b.report.index with hsorted
    have hsum : ∀ u ∈ sorted,
        Summarises pub.isSome (ofConfiguration u.report.index (fun _ => True) pp) u.report.total ∧
        ∀ s, S[u.report.index]? = some s → u.strategy = if pub.isSome then none else some s.strategy := by
      intro u hu
      obtain ⟨g1, g2, -⟩ := r7 u (hsp.mem_iff.1 hu)
      exact ⟨g2, g1⟩
    by_cases hm : o.params.metrics = []
    · refine ⟨⟨c, none, sorted⟩, ?_, rfl, hsi, hsum, fun _ => rfl, fun hne => absurd hm hne⟩
      rw [htune]
      unfold convert
      rw [if_neg (not_not.2 hlen), if_pos hm]
      rfl
    · -- the error of a report
      have hfirst : ∀ u ∈ reports, firstError u = .ok (u.report.index, predictedError pp u.report.index) := by
        intro u hu
        have hsu := (r7 u hu).2.1
        have hui : u.report.index < S.length := by
          have := hperm.mem_iff.1 (List.mem_map_of_mem (f := fun r : UtilityReport => r.report.index) hu)
          simpa using this
        have hs := List.getElem?_eq_getElem hui
        set s := S[u.report.index] with hsdef
        have hpos : 1 ≤ (if Engine.Metric.sum ∈ o.params.metrics then s.sums.length else 0) +
            (if Engine.Metric.count ∈ o.params.metrics then 1 else 0) +
            (if Engine.Metric.privacyIdCount ∈ o.params.metrics then 1 else 0) := by
          obtain ⟨m, hmm⟩ := List.exists_mem_of_ne_nil _ hm
          rcases ht.metrics m hmm with rfl | rfl | rfl
          · rw [if_pos hmm]; omega
          · rw [if_pos hmm]
            have hk := (hch s (List.mem_of_getElem? hs)).2 hmm
            have : 1 ≤ s.sums.length := by
              rw [hk]
              cases htn : o.tuneMaxSum with
              | false => simp
              | true =>
                obtain ⟨l0s, m, n, e1, _, e3, e4, _, _, _, _, _, e10⟩ :=
                  Tuning.C46_configuration o.request h acc1 acc2 c0 ht.candidates hc
                obtain ⟨cols, i1, i2, f⟩ := e10 (by simp [Options.request, htn, hmm])
                rw [if_pos rfl, f.length_eq]
                by_contra hz
                have hcz : cols = [] := List.length_eq_zero_iff.1 (by omega)
                obtain ⟨_, _, _, hb, _⟩ := i1
                rw [hcz] at hb
                simp [Tuning.sumLists, Tuning.rowsOf] at hb
                rw [← hb, Nat.mul_zero] at e3
                omega
            omega
          · rw [if_pos hmm]; omega
        have hlens : ∀ p ∈ ofConfiguration u.report.index (fun _ => True) pp, p.errors.length =
            (if Engine.Metric.sum ∈ o.params.metrics then s.sums.length else 0) +
            (if Engine.Metric.count ∈ o.params.metrics then 1 else 0) +
            (if Engine.Metric.privacyIdCount ∈ o.params.metrics then 1 else 0) := by
          intro p hp
          unfold ofConfiguration at hp
          obtain ⟨⟨⟨k, i⟩, p'⟩, he, rfl⟩ := List.mem_map.1 hp
          obtain ⟨he1, he2⟩ := List.mem_filter.1 he
          simp only [decide_eq_true_eq, and_true] at he2
          subst he2
          rw [(r4 k _ _ s he1 hs).errors, allErrors_length]
        have hk := hsu.metrics _ hlens
        unfold firstError
        rcases hl : u.report.total.2 with _ | ⟨x, xs⟩
        · rw [hl] at hk; simp only [List.length_nil] at hk; omega
        · dsimp only
          congr 2
          have := hsu.absolute 0 (fun p => p.errors.headD ⟨⟨0, 0, 0, 0, 0⟩, 0⟩) (by
            intro p hp
            have := hlens p hp
            rcases hpe : p.errors with _ | ⟨y, ys⟩
            · rw [hpe] at this; simp only [List.length_nil] at this; omega
            · rfl) x (by rw [hl]; rfl) .rmse
          rw [this]
          unfold predictedError
          refine weightedMean_congr (fun p hp => rfl) (fun p hp => ?_)
          have := hlens p hp
          rcases hpe : p.errors with _ | ⟨y, ys⟩
          · rw [hpe] at this; simp only [List.length_nil] at this; omega
          · rfl
      have herr := mapM_ok reports hfirst
      obtain ⟨i, e, b1, b2, b3, b4⟩ := Tuning.C46_best (reports.map fun u => (u.report.index, predictedError pp u.report.index))
        S.length hS1 (by rw [List.map_map]; exact hperm)
      have hval : ∀ j e', (j, e') ∈ (reports.map fun u => (u.report.index, predictedError pp u.report.index)) →
          e' = predictedError pp j := by
        intro j e' hj
        obtain ⟨u, -, hu⟩ := List.mem_map.1 hj
        cases hu; rfl
      have hei := hval _ _ b3
      refine ⟨⟨c, some i, sorted⟩, ?_, rfl, hsi, hsum, fun h => absurd h hm, fun _ => ⟨i, rfl, b2, fun j hj => ?_⟩⟩
      · rw [htune]
        unfold convert
        rw [if_neg (not_not.2 hlen), if_neg hm, herr]
        change Except.map _ (raising TuneFail.candidates (indexBest (reports.map fun u => (u.report.index,
          predictedError pp u.report.index)) S.length true) >>= _) = _
        rw [b1]
        rfl
      · obtain ⟨u, hu, hui⟩ := List.mem_map.1 (hperm.mem_iff.2 (List.mem_range.2 hj))
        have := b4 j (predictedError pp j) (by rw [← hui]; exact List.mem_map_of_mem hu)
        rw [hei] at this
        exact this

/-- **C76** (candidates are found).  Without sums of several columns the candidates exist whenever the histograms which are used
are not empty, so that the theorem above applies. -/
theorem C76_candidates {o : Options} {isPublic : Bool} {h : Hists} {vs : List Val} (ht : Tunable o isPublic h vs) (acc1 acc2 : ℕ → ℕ)
    (h0 : o.tuneL0 = true → 1 ≤ h.l0Max) (hi : o.tuneLinf = true → Engine.Metric.count ∈ o.params.metrics → 1 ≤ h.linfMax)
    (hs : o.tuneMaxSum = true → Engine.Metric.sum ∈ o.params.metrics → h.sums.length = 1) :
    ∃ c0, findCandidates o.request h acc1 acc2 = .ok c0 := by
  refine Tuning.C46_succeeds o.request h acc1 acc2 ht.candidates h0 ?_ ?_
  · intro hc
    simp only [Options.request, Bool.and_eq_true, decide_eq_true_eq] at hc
    exact hi hc.1 hc.2
  · intro hc
    simp only [Options.request, Bool.and_eq_true, decide_eq_true_eq] at hc
    obtain ⟨bins, hb⟩ := List.length_eq_one_iff.1 (hs hc.1 hc.2)
    obtain ⟨h1, h2⟩ := (ht.tunedSums hc.2 hc.1).1 bins (by rw [hb]; simp)
    exact ⟨bins, hb, h1, h2⟩

/-- **C76** (the bound on partitions is not tuned).  Then all configurations have the bound of the parameters (1 if they have none). -/
theorem C76_partitions_not_tuned {o : Options} {isPublic : Bool} {h : Hists} {vs : List Val} (ht : Tunable o isPublic h vs)
    (acc1 acc2 : ℕ → ℕ) (h0 : o.tuneL0 = false) {c0} (hc : findCandidates o.request h acc1 acc2 = .ok c0) :
    ∃ l, c0.l0 = some l ∧ 1 ≤ l.length ∧ (∀ v, o.params.maxPartitions = some v → 1 ≤ v → ∀ x ∈ l, x = v) ∧
      (o.params.maxPartitions = none → ∀ x ∈ l, x = 1) := by
  obtain ⟨l, h1, h2, h3, h4⟩ := Tuning.C46_partitions_not_tuned o.request h acc1 acc2 c0 ht.candidates h0 hc
  exact ⟨l, h1, h2, h3, fun hn => h4 (Or.inl hn)⟩

/-- **C76** (the metric which is minimised).  Whatever the order in which the metrics are given, the error which is minimised is
that of SUM (of its first column) if SUM is computed, else of COUNT, else of PRIVACY_ID_COUNT. -/
theorem C76_minimised_metric {sigma : ℝ → ℝ → ℝ → ℝ} {keepOf : SelectionArgs → ℕ → ℚ} {approx : Moments → ℕ × List ℚ} {e d : ℚ}
    {isPublic : Bool} {p : Engine.Params} {s : Setting} {users : List Data} {m : Reports.PartitionMetrics PM}
    (h : Describes sigma keepOf approx e d isPublic p s users m) :
    let e' : ℝ := ((e / nMechanisms isPublic p.metrics s.sums.length : ℚ) : ℝ)
    let d' : ℝ := ((d / nDelta isPublic p.metrics s.noise s.sums.length : ℚ) : ℝ)
    (Engine.Metric.sum ∈ p.metrics → ∀ b bs, s.sums = b :: bs → m.errors.head? =
      some (errorsOf sigma s.noise e' d' s.l0 b.1 b.2 (max |b.1| |b.2|)
        (users.map fun u => (u.value (if bs = [] then none else some 0), u.nPartitions)))) ∧
    (Engine.Metric.sum ∉ p.metrics → Engine.Metric.count ∈ p.metrics → m.errors.head? =
      some (errorsOf sigma s.noise e' d' s.l0 0 s.linf s.linf (users.map fun u => ((u.count : ℚ), u.nPartitions)))) ∧
    (Engine.Metric.sum ∉ p.metrics → Engine.Metric.count ∉ p.metrics → Engine.Metric.privacyIdCount ∈ p.metrics → m.errors.head? =
      some (errorsOf sigma s.noise e' d' s.l0 0 1 1
        (users.map fun u => ((if u.count > 0 then 1 else 0 : ℚ), u.nPartitions)))) := by
  intro e' d'
  rw [h.errors]
  unfold allErrors
  refine ⟨fun h1 b bs hb => ?_, fun h1 h2 => ?_, fun h1 h2 h3 => ?_⟩
  · rw [if_pos h1]
    simp only [e', d', hb, List.zipIdx_cons, List.map_cons, List.cons_append, List.head?_cons, List.length_cons, Nat.add_eq_right,
      List.length_eq_zero_iff, Nat.zero_add]
  · rw [if_neg h1, if_pos h2]; rfl
  · rw [if_neg h1, if_neg h2, if_pos h3]; rfl

/-- **C76, gap** (partition selection is not taken into account).  A configuration under which all partitions are dropped has the
predicted error 0: no other configuration can be preferred to it for its error. -/
theorem C76_dropped_is_perfect (perPartition : List ((K × ℕ) × Reports.PartitionMetrics PM)) (i : ℕ)
    (h : ∀ k m, ((k, i), m) ∈ perPartition → m.keep = 0) : predictedError perPartition i = 0 := by
  unfold predictedError weightedMean
  rw [if_pos]
  apply List.sum_eq_zero
  intro x hx
  obtain ⟨m, hm, rfl⟩ := List.mem_map.1 hx
  unfold ofConfiguration at hm
  obtain ⟨⟨⟨k, j⟩, m'⟩, he, rfl⟩ := List.mem_map.1 hm
  obtain ⟨he1, he2⟩ := List.mem_filter.1 he
  simp only [decide_eq_true_eq, and_true] at he2
  subst he2
  simp [h k m' he1]

/-- **C76, gap** (no partition).  Without public partitions, if no partition of the data is sampled (in particular without any
data), tuning does not return a result but fails with an `AssertionError`. -/
theorem C76_no_partition (env : Env K) (hB : env.backend.Lawful)
    (hcomb : ∀ {A : Type} (merge : A → A → A), LawfulCombine merge (env.combine merge)) (O : Ops) (hO : O.Lawful)
    (lib : PyDP) (keepOf : SelectionArgs → ℕ → ℚ) (approx : Moments → ℕ × List ℚ) (keep : K → Bool) (h : Hists)
    (acc1 acc2 : ℕ → ℕ) (o : Options) (rows : List (P × K × Val)) (ht : Tunable o false h (rows.map fun r => r.2.2))
    (c0 : Multi Unit Unit) (hc : findCandidates o.request h acc1 acc2 = .ok c0) (hk : ∀ r ∈ rows, keep r.2.1 = false) :
    tune env O lib keepOf approx keep h acc1 acc2 o none (.raw rows) = .error .assertionError := by
  obtain ⟨c, S, pp, _, _, _, _, _, _, _, _, h1, _, h2, _⟩ :=
    C76_tune env hB hcomb O hO lib keepOf approx keep h acc1 acc2 o none rows ht c0 hc (fun _ ps hp => by cases hp)
  refine h2 ?_
  rcases pp with _ | ⟨⟨⟨k, i⟩, m⟩, pp⟩
  · rfl
  · obtain ⟨-, ⟨g1, r, g2, g3⟩ | ⟨ps, g1, -⟩⟩ := (h1 k i).1 (by simp)
    · rw [← g3, hk r g2] at g1; cases g1
    · cases g1

/-- **C76** (rejected arguments).  Nothing to tune, an invalid budget, no metrics with public partitions, a first metric other than
COUNT, PRIVACY_ID_COUNT and SUM, the tuning of the minimum of the sum and (then) another function to minimise are rejected,
before anything is computed; all other arguments are accepted by these checks. -/
theorem C76_rejected (o : Options) (isPublic : Bool) :
    (o.validate = .error .valueError ↔
      (o.tuneL0 = false ∧ o.tuneLinf = false ∧ o.tuneMinSum = false ∧ o.tuneMaxSum = false ∧ o.tuneNoise = false) ∨
      ¬(0 < o.eps ∧ 0 ≤ o.delta ∧ o.delta < 1)) ∧
    (checkArgs o isPublic = .error .valueError ↔
      (o.params.metrics = [] ∧ isPublic = true) ∨
      (∃ m ms, o.params.metrics = m :: ms ∧ m ≠ .count ∧ m ≠ .privacyIdCount ∧ m ≠ .sum) ∨ o.tuneMinSum = true) ∧
    (checkArgs o isPublic ≠ .error .valueError → o.absolute = false → checkArgs o isPublic = .error .notImplemented) ∧
    (checkArgs o isPublic ≠ .error .valueError → o.absolute = true → checkArgs o isPublic = .ok ()) ∧
    ∀ (env : Env K) (O : Ops) (lib : PyDP) (keepOf : SelectionArgs → ℕ → ℚ) (approx : Moments → ℕ × List ℚ) (keep : K → Bool)
      (h : Hists) (acc1 acc2 : ℕ → ℕ) (pub : Option (List K)) (input : Input P K) (e : TuneFail), pub.isSome = isPublic →
      o.validate = .error e ∨ (o.validate = .ok () ∧ checkArgs o isPublic = .error e) →
      tune env O lib keepOf approx keep h acc1 acc2 o pub input = .error e := by
  refine ⟨?_, ?_, ?_, ?_, ?_⟩
  · unfold Options.validate
    rcases o.tuneL0 <;> rcases o.tuneLinf <;> rcases o.tuneMinSum <;> rcases o.tuneMaxSum <;> rcases o.tuneNoise <;>
      simp <;> split_ifs <;> simp_all
  · unfold checkArgs
    rcases o.params.metrics with _ | ⟨m, ms⟩
    · cases isPublic <;> cases o.tuneMinSum <;> cases o.absolute <;> simp [bind, Except.bind, pure, Except.pure]
    · cases m <;> cases o.tuneMinSum <;> cases o.absolute <;> simp [bind, Except.bind, pure, Except.pure]
  · unfold checkArgs
    rcases o.params.metrics with _ | ⟨m, ms⟩
    · cases isPublic <;> cases o.tuneMinSum <;> cases o.absolute <;> simp [bind, Except.bind, pure, Except.pure]
    · cases m <;> cases o.tuneMinSum <;> cases o.absolute <;> simp [bind, Except.bind, pure, Except.pure]
  · unfold checkArgs
    rcases o.params.metrics with _ | ⟨m, ms⟩
    · cases isPublic <;> cases o.tuneMinSum <;> cases o.absolute <;> simp [bind, Except.bind, pure, Except.pure]
    · cases m <;> cases o.tuneMinSum <;> cases o.absolute <;> simp [bind, Except.bind, pure, Except.pure]
  · rintro env O lib keepOf approx keep h acc1 acc2 pub input e rfl (h1 | ⟨h1, h2⟩)
    · unfold tune; rw [h1]; rfl
    · unfold tune; rw [h1, h2]; rfl

/-! ### Non-vacuity -/

/-- SUM and COUNT with private partitions; partitions, contributions and sums are tuned: nine configurations. -/
example :
    let o : Options :=
      { eps := 1, delta := 1 / 100, params := { metrics := [.sum, .count] }, tuneL0 := true, tuneLinf := true, tuneMaxSum := true
        candidates := 9 }
    let h : Hists := ⟨4, 10, [[1, 6]]⟩
    let rows : List (ℕ × Char × Val) := [(1, 'a', .scalar 2), (1, 'b', .scalar 9), (2, 'a', .scalar (-1))]
    Tunable o false h ((relevant none rows).map fun r => r.2.2) ∧
    (findCandidates o.request h (fun i => 2 * i) (fun i => 3 * i)).toOption.map (fun c => c.l0.map List.length) = some (some 9) := by
  intro o h rows
  refine ⟨⟨by norm_num [o], by norm_num [o], by norm_num [o], by norm_num [o], rfl, rfl, rfl, by simp [o], by simp, rfl, rfl, rfl,
    by norm_num [o], .inl ⟨rfl, by simp [o]⟩, by simp [o], ?_, by simp [o], ?_⟩, by decide +kernel⟩
  · intro _ _
    refine ⟨by simp [h], by simp, ?_⟩
    simp [h, FitColumns, relevant, rows]
  · left; simp [relevant, rows]

/-- Partition selection only. -/
example :
    let o : Options := { eps := 1, delta := 1 / 100, params := { metrics := [], maxPerPartition := some 1 }, tuneL0 := true }
    let rows : List (ℕ × Char × Val) := [(1, 'a', .scalar 0)]
    Tunable o false ⟨3, 1, []⟩ ((relevant none rows).map fun r => r.2.2) ∧
    (findCandidates o.request ⟨3, 1, []⟩ id id).toOption.map (fun c => c.l0) = some (some [1, 2, 3]) := by
  intro o rows
  refine ⟨⟨by norm_num [o], by norm_num [o], by norm_num [o], by norm_num [o], rfl, rfl, rfl, by simp [o], by simp, rfl, rfl, rfl,
    by norm_num [o], .inr ⟨1, rfl, le_refl _⟩, by simp [o], by simp [o], by simp [o], ?_⟩, by decide +kernel⟩
  left; simp [relevant, rows]

/-- Only contributions per partition are tuned; the bound on partitions is the given one. -/
example :
    let o : Options := { eps := 1, delta := 1 / 100, params := { metrics := [.count], maxPartitions := some 4 }, tuneLinf := true }
    let rows : List (ℕ × Char × Val) := [(1, 'a', .scalar 0)]
    Tunable o false ⟨3, 2, []⟩ ((relevant none rows).map fun r => r.2.2) ∧ o.tuneL0 = false ∧
    (findCandidates o.request ⟨3, 2, []⟩ id id).toOption.map (fun c => (c.l0, c.linf)) = some (some [4, 4], some [1, 2]) := by
  intro o rows
  refine ⟨⟨by norm_num [o], by norm_num [o], by norm_num [o], by norm_num [o], rfl, rfl, rfl, by simp [o], by simp, rfl, rfl, rfl,
    by norm_num [o], .inl ⟨rfl, by simp [o]⟩, by simp [o], by simp [o], by simp [o], ?_⟩, rfl, by decide +kernel⟩
  left; simp [relevant, rows]

/-- Two partitions which are dropped under configuration 1 but not under configuration 0. -/
example :
    let pp : List ((Char × ℕ) × Reports.PartitionMetrics PM) := [(('a', 0), ⟨1, 2, 2, []⟩), (('a', 1), ⟨0, 2, 2, []⟩),
      (('b', 0), ⟨1, 1, 1, []⟩), (('b', 1), ⟨0, 1, 1, []⟩)]
    (∀ k m, ((k, 1), m) ∈ pp → m.keep = 0) ∧ ¬ ∀ k m, ((k, 0), m) ∈ pp → m.keep = 0 := by
  intro pp
  refine ⟨fun k m hm => ?_, fun h => ?_⟩
  · simp only [pp, List.mem_cons, Prod.mk.injEq, List.not_mem_nil, or_false] at hm
    rcases hm with ⟨⟨-, h⟩, -⟩ | ⟨-, rfl⟩ | ⟨⟨-, h⟩, -⟩ | ⟨-, rfl⟩
    · cases h
    · rfl
    · cases h
    · rfl
  · have := h 'a' ⟨1, 2, 2, []⟩ (by simp [pp])
    norm_num at this

/-- A second metric which is not supported passes the checks; as the first one it is rejected. -/
example :
    checkArgs { eps := 1, delta := 0, params := { metrics := [.count, .mean] } } true = .ok () ∧
    checkArgs { eps := 1, delta := 0, params := { metrics := [.mean, .count] } } true = .error .valueError := ⟨rfl, rfl⟩

end PDP.Analysis.Tune
