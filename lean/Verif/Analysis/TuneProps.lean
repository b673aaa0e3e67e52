import Verif.Analysis.Tune

/-!
# Property C76: tuning as a whole
-/

set_option linter.unusedVariables false
set_option linter.unusedSectionVars false

namespace PDP.Analysis.Tune

open PDP
open PDP.Engine (NoiseKind LawfulCombine relevant usersIn)
open PDP.EndToEnd (Env)
open PDP.Analysis.Config (Multi allParams SumVal SameKind Element SumsElement Len given)
open PDP.Analysis.Tuning (Request Hists findCandidates indexBest l0Bounds relativeStep subsample sumLists rowsOf Inner)
open PDP.Analysis.Strategy (PyDP Selector DPStrategy mkSelector addStrategies Best BestSelection thresholdingOf)

variable {P K : Type} [DecidableEq P] [DecidableEq K]

/-! ### Specification -/

/-- The noise and the strategy of partition selection of a candidate: the noise of the parameters if it is not tuned, else the one
with the smallest deviation; the better strategy for the budget of partition selection. -/
structure Chosen (lib : PyDP) (o : Options) (isPublic : Bool) (s : Setting) : Prop where
  fixedNoise : o.tuneNoise = false → s.noise = o.params.noiseKind
  publicNoise : o.tuneNoise = true → isPublic = true →
    Best lib o.eps o.delta (s.l0 * o.params.metrics.length) 1 s.noise
  idCountNoise : o.tuneNoise = true → isPublic = false → Engine.Metric.privacyIdCount ∈ o.params.metrics →
    Best lib o.eps (o.delta / 2) (s.l0 * o.params.metrics.length) 1 s.noise
  otherNoise : o.tuneNoise = true → isPublic = false → o.params.metrics ≠ [] → Engine.Metric.privacyIdCount ∉ o.params.metrics →
    Best lib (o.eps / 2) (o.delta / 2) (s.l0 * o.params.metrics.length) 1 s.noise
  onlySelection : o.params.metrics = [] → BestSelection lib o.eps o.delta s.l0 s.strategy
  idCountSelection : isPublic = false → Engine.Metric.privacyIdCount ∈ o.params.metrics →
    ∃ k, Best lib o.eps (o.delta / 2) (s.l0 * o.params.metrics.length) 1 k ∧ s.strategy = thresholdingOf k
  otherSelection : isPublic = false → o.params.metrics ≠ [] → Engine.Metric.privacyIdCount ∉ o.params.metrics →
    BestSelection lib (o.eps / 2) (o.delta / 2) (s.l0 * o.params.metrics.length) s.strategy

/-- Options for which tuning is supported, with the histograms `h` and the values `vs` of the rows. -/
structure Tunable (o : Options) (isPublic : Bool) (h : Hists) (vs : List Val) : Prop where
  eps : 0 < o.eps
  delta : 0 ≤ o.delta ∧ o.delta < 1
  selection : isPublic = false → 0 < o.delta
  gaussian : o.tuneNoise = false → o.params.noiseKind = .gaussian → 0 < o.delta
  something : (o.tuneL0 || o.tuneLinf || o.tuneMaxSum || o.tuneNoise) = true
  minSum : o.tuneMinSum = false
  absolute : o.absolute = true
  metrics : ∀ m ∈ o.params.metrics, m = .count ∨ m = .sum ∨ m = .privacyIdCount
  publicMetrics : isPublic = true → o.params.metrics ≠ []
  notEnforced : o.params.boundsEnforced = false
  thresholding : o.params.postThresholding = false
  maxContributions : o.params.maxContributions = none
  candidates : 1 ≤ o.candidates
  linf : (o.tuneLinf = true ∧ Engine.Metric.count ∈ o.params.metrics) ∨ ∃ l, o.params.maxPerPartition = some l ∧ 1 ≤ l
  minValue : Engine.Metric.sum ∈ o.params.metrics → o.params.minValue = none
  tunedSums : Engine.Metric.sum ∈ o.params.metrics → o.tuneMaxSum = true →
    (∀ bins ∈ h.sums, bins.Pairwise (· < ·) ∧ ((∃ b, bins.head? = some b ∧ 0 < b) ∨ ∃ b, bins[1]? = some b ∧ 0 < b)) ∧
    (isPublic = true → h.sums.length = 1) ∧ FitColumns h.sums.length vs
  givenSums : Engine.Metric.sum ∈ o.params.metrics → o.tuneMaxSum = false →
    (∃ lo hi, o.params.minSum = some lo ∧ o.params.maxSum = some hi ∧ ¬(lo = 0 ∧ hi = 0)) ∧ FitColumns 1 vs
  shape : SameShape vs

/-- The predicted root mean square error of one metric in one partition: bias and variance of the bounding of contributions and
of the noise. -/
noncomputable def rootMeanSquare (m : PM) : ℝ :=
  Real.sqrt ((m.expectedL0 + m.clippingToMin + m.clippingToMax) ^ 2 + (m.stdL0 ^ 2 + m.stdNoise ^ 2))

/-- The error of configuration `i` which tuning minimises: the mean over the partitions, weighted with the probabilities to keep
them, of the root mean square error of the first metric. -/
noncomputable def predictedError (perPartition : List ((K × ℕ) × Reports.PartitionMetrics PM)) (i : ℕ) : ℝ :=
  weightedMean (fun m => (m.keep : ℝ)) (fun m => match m.errors with | [] => 0 | e :: _ => rootMeanSquare e)
    (ofConfiguration i (fun _ => True) perPartition)

/-! ### Candidates -/

theorem relativeStep_pos {a b : ℕ} {acc : ℕ → ℕ} {l : List ℕ} (h : relativeStep a b acc = .ok l) : ∀ x ∈ l, 1 ≤ x := by
  obtain ⟨h1, h2, -⟩ := Tuning.relativeStep_ok h
  obtain ⟨l', e1, -, e2, -⟩ := Tuning.C46_relative_step a b acc h1 h2
  rw [h] at e1; cases e1
  exact fun x hx => (e2 x hx).1

theorem l0Bounds_pos {r : Request} {h : Hists} {acc : ℕ → ℕ} {l : List ℕ} (hl : l0Bounds r h acc = .ok l) : ∀ x ∈ l, 1 ≤ x := by
  unfold l0Bounds at hl
  split at hl
  · exact relativeStep_pos hl
  · simp only [Except.ok.injEq] at hl
    subst hl
    rcases r.l0Param with _ | a
    · simp
    · dsimp only
      split <;> simp <;> omega

theorem findCandidates_plain {r : Request} {h : Hists} {acc1 acc2 : ℕ → ℕ} {c : Multi Unit Unit}
    (hc : findCandidates r h acc1 acc2 = .ok c) : c.noise = none ∧ c.strategy = none := by
  unfold findCandidates at hc
  rcases hl0 : l0Bounds r h acc1 with e | l0s
  · rw [hl0] at hc; cases hc
  rw [hl0] at hc
  change (Tuning.linfLists r h (r.maxCandidates / l0s.length) acc2 >>= _) = _ at hc
  rcases hli : Tuning.linfLists r h (r.maxCandidates / l0s.length) acc2 with e | ⟨counts, sums, len'⟩
  · rw [hli] at hc; cases hc
  rw [hli] at hc
  set cfg : Multi Unit Unit := ⟨some (Tuning.dupEach l0s len'), counts.map fun a => Tuning.dupList a l0s.length,
    sums.map fun a => Tuning.dupList (sumLists a).1 l0s.length, sums.map fun a => Tuning.dupList (sumLists a).2 l0s.length,
    none, none⟩ with hcfg
  change (match cfg.check with | .ok _ => Except.ok cfg | .error _ => Except.error Tuning.Err.valueError) = _ at hc
  rcases hck : cfg.check with e | n
  · rw [hck] at hc; cases hc
  rw [hck] at hc
  simp only [Except.ok.injEq] at hc
  subst hc
  exact ⟨rfl, rfl⟩

/-- Noise and strategies do not matter for the size of the configuration, if there are as many of them. -/
theorem check_with {c : Multi Unit Unit} {n : ℕ} (h : c.check = .ok n) (hn : c.noise = none) (hs : c.strategy = none)
    {N S : Type} (noise : Option (List N)) (strategy : Option (List S)) (h1 : ∀ l, noise = some l → l.length = n)
    (h2 : ∀ l, strategy = some l → l.length = n) :
    (⟨c.l0, c.linf, c.minSum, c.maxSum, noise, strategy⟩ : Multi N S).check = .ok n := by
  obtain ⟨l0, linf, mn, mx, no, st⟩ := c
  cases hn; cases hs
  have hpos := (Config.C55_lengths _ n h).1
  unfold Multi.check at h ⊢
  have hsz : ∀ {A : Type} (o : Option (List A)), (∀ l, o = some l → l.length = n) → ∀ m ∈ Config.sizeOf o, m = n := by
    intro A o ho m hm
    obtain ⟨l, hl, _, rfl⟩ := Config.mem_sizeOf.1 hm
    exact ho l hl
  have e1 : (⟨l0, linf, mn, mx, noise, strategy⟩ : Multi N S).sizes =
      (⟨l0, linf, mn, mx, none, none⟩ : Multi Unit Unit).sizes ++ (Config.sizeOf noise ++ Config.sizeOf strategy) := by
    simp [Multi.sizes, Config.sizeOf, given]
  rw [e1]
  rcases hs : (⟨l0, linf, mn, mx, none, none⟩ : Multi Unit Unit).sizes with _ | ⟨m, ms⟩
  · rw [hs] at h; simp at h
  rw [hs] at h
  dsimp only [List.cons_append] at h ⊢
  by_cases hm : ms.foldl min m = ms.foldl max m
  · rw [if_neg (not_not.2 hm)] at h
    have hmn : m = n := by
      split_ifs at h
      all_goals first
        | (simp only [Except.ok.injEq] at h; exact h)
        | (rcases hc1 : Config.commonLen (mn.getD []) with e | s1
           · rw [hc1] at h; cases h
           · rw [hc1] at h
             change (Config.commonLen (mx.getD []) >>= _) = _ at h
             rcases hc2 : Config.commonLen (mx.getD []) with e | s2
             · rw [hc2] at h; cases h
             · rw [hc2] at h
               change (if _ then _ else _) = _ at h
               split_ifs at h
               simp only [Except.ok.injEq] at h; exact h)
    have hall : (ms ++ (Config.sizeOf noise ++ Config.sizeOf strategy)).foldl min m =
        (ms ++ (Config.sizeOf noise ++ Config.sizeOf strategy)).foldl max m := by
      rw [Config.min_eq_max_iff]
      intro x hx
      rw [hmn]
      rcases List.mem_append.1 hx with hx | hx
      · rw [← hmn]; exact (Config.min_eq_max_iff _ _).1 hm x hx
      · rcases List.mem_append.1 hx with hx | hx
        · exact hsz _ h1 x hx
        · exact hsz _ h2 x hx
    rw [if_neg (not_not.2 hall)]
    exact h
  · rw [if_pos hm] at h; cases h

theorem inner_mem {A : Type} {n m : ℕ} {base : List A} {o : Option (List A)} (h : Inner n m base o) {l : List A} (hl : o = some l) :
    ∀ x ∈ l, x ∈ base := by
  obtain ⟨l', e1, e2, e3, e4⟩ := h
  rw [hl] at e1; cases e1
  intro x hx
  obtain ⟨i, hi, rfl⟩ := List.getElem_of_mem hx
  have := e4 i (by omega)
  rw [List.getElem?_eq_getElem hi] at this
  exact List.mem_of_getElem? this.symm

/-- The kinds of the bounds of one or several columns. -/
theorem sumLists_kind (cols : List (List ℚ)) :
    (cols.length = 1 → (∀ v ∈ (sumLists cols).1 ++ (sumLists cols).2, v.isSeq = false)) ∧
    (cols.length ≠ 1 → (∀ v ∈ (sumLists cols).1 ++ (sumLists cols).2, v.isSeq = true)) := by
  rcases cols with _ | ⟨a, _ | ⟨b, cs⟩⟩
  · refine ⟨by simp, fun _ v hv => ?_⟩
    simp [sumLists, rowsOf] at hv
  · refine ⟨fun _ v hv => ?_, by simp⟩
    simp only [sumLists, List.mem_append, List.mem_map] at hv
    rcases hv with ⟨_, _, rfl⟩ | ⟨_, _, rfl⟩ <;> rfl
  · refine ⟨by simp, fun _ v hv => ?_⟩
    simp only [sumLists, List.mem_append, List.mem_map] at hv
    rcases hv with ⟨_, _, rfl⟩ | ⟨_, _, rfl⟩ <;> rfl

theorem sumLists_pos {cols : List (List ℚ)} {m : ℕ} (hl : ∀ a ∈ cols, a.length = m) (hp : ∀ a ∈ cols, ∀ x ∈ a, 0 < x) :
    ∀ v ∈ (sumLists cols).2, (∃ x, v = .num x ∧ 0 < x ∧ cols.length = 1) ∨
      ∃ xs, v = .seq xs ∧ xs.length = cols.length ∧ (∀ x ∈ xs, 0 < x) ∧ cols.length ≠ 1 := by
  have seqs : ∀ cols : List (List ℚ), (∀ a ∈ cols, a.length = m) → (∀ a ∈ cols, ∀ x ∈ a, 0 < x) → ∀ xs ∈ rowsOf cols,
      xs.length = cols.length ∧ ∀ x ∈ xs, 0 < x := by
    intro cols hl hp xs hxs
    unfold rowsOf at hxs
    obtain ⟨i, hi, rfl⟩ := List.mem_map.1 hxs
    refine ⟨by simp, fun x hx => ?_⟩
    obtain ⟨a, ha, rfl⟩ := List.mem_map.1 hx
    have him : i < a.length := by
      rw [hl a ha]
      rcases cols with _ | ⟨b, cs⟩
      · simp at hi
      · rw [List.mem_range] at hi
        simp only [List.headD_cons] at hi
        rw [hl b (by simp)] at hi
        exact hi
    rw [List.getD_eq_getElem _ _ him]
    exact hp a ha _ (List.getElem_mem _)
  intro v hv
  rcases cols with _ | ⟨a, _ | ⟨b, cs⟩⟩
  · simp [sumLists, rowsOf] at hv
  · simp only [sumLists, List.mem_map] at hv
    obtain ⟨x, hx, rfl⟩ := hv
    exact .inl ⟨x, rfl, hp a (by simp) x hx, by simp⟩
  · simp only [sumLists, List.mem_map] at hv
    obtain ⟨xs, hx, rfl⟩ := hv
    obtain ⟨h1, h2⟩ := seqs _ hl hp xs hx
    exact .inr ⟨xs, rfl, h1, h2, by simp⟩

theorem sumLists_length1 (cols : List (List ℚ)) : ∀ v ∈ (sumLists cols).1, ∀ xs, v = .seq xs → xs.length = cols.length := by
  intro v hv xs h
  subst h
  rcases cols with _ | ⟨a, _ | ⟨b, cs⟩⟩
  · simp [sumLists, rowsOf] at hv
  · simp [sumLists] at hv
  · simp only [sumLists, List.mem_map] at hv
    obtain ⟨_, _, h⟩ := hv
    cases h; simp

/-! ### The settings of the candidates -/

theorem list_of_forall {A : Type} {Q : ℕ → A → Prop} (n : ℕ) (h : ∀ i < n, ∃ a, Q i a) :
    ∃ l : List A, l.length = n ∧ ∀ (i : ℕ) a, l[i]? = some a → Q i a := by
  refine ⟨List.ofFn fun i : Fin n => (h i i.2).choose, by simp, fun i a ha => ?_⟩
  have hi : i < n := by
    by_contra hc
    rw [List.getElem?_eq_none (by simp; omega)] at ha; cases ha
  rw [List.getElem?_ofFn, dif_pos hi] at ha
  cases ha
  exact (h i hi).choose_spec

theorem element_some {A : Type} {l : List A} {i : ℕ} {x : A} (old : Option A) (h : l[i]? = some x) :
    Element i (some l) old (some x) := by
  refine ⟨?_, ?_⟩
  · rintro l' e _; cases e; exact ⟨h.symm, by simp⟩
  · rintro (e | e)
    · cases e
    · cases e; simp at h

theorem element_none {A : Type} {i : ℕ} {x : A} {old : Option A} (h : old = some x) :
    Element i (none : Option (List A)) old (some x) := ⟨(by intro l e; cases e), fun _ => h.symm⟩

/-- The noise which is not tuned. -/
def fixedNoise (o : Options) : Option NoiseKind := if o.tuneNoise then none else some o.params.noiseKind

theorem sameKind_candidates {r : Request} {h : Hists} {acc1 acc2 : ℕ → ℕ} {c : Multi Unit Unit} (h1 : 1 ≤ r.maxCandidates)
    (hc : findCandidates r h acc1 acc2 = .ok c) : SameKind c.minSum c.maxSum := by
  obtain ⟨l0s, m, n, e1, e2, e3, e4, e5, e6, e7, e8, e9, e10⟩ := Tuning.C46_configuration r h acc1 acc2 c h1 hc
  intro l l' hl hl' hne
  cases hsum : r.sum with
  | false => rw [(e9 hsum).1] at hl; cases hl
  | true =>
    obtain ⟨cols, i1, i2, -⟩ := e10 hsum
    refine ⟨?_, ?_⟩
    · obtain ⟨l'', g1, g2, -⟩ := i2
      rw [hl'] at g1; cases g1
      intro h0; rw [h0] at g2; simp at g2; omega
    · obtain ⟨k1, k2⟩ := sumLists_kind cols
      have hsub : ∀ v ∈ l ++ l', v ∈ (sumLists cols).1 ++ (sumLists cols).2 := by
        intro v hv
        rcases List.mem_append.1 hv with hv | hv
        · exact List.mem_append_left _ (inner_mem i1 hl v hv)
        · exact List.mem_append_right _ (inner_mem i2 hl' v hv)
      by_cases hk : cols.length = 1
      · exact .inr fun v hv => k1 hk v (hsub v hv)
      · exact .inl fun v hv => k2 hk v (hsub v hv)

theorem forall₂_get {A B : Type} {R : A → B → Prop} : ∀ {l : List A} {l' : List B}, List.Forall₂ R l l' → ∀ (i : ℕ) a, l[i]? = some a →
    ∃ b, l'[i]? = some b ∧ R a b
  | _, _, .nil, i, a, h => by simp at h
  | _, _, .cons hr ht, 0, a, h => by simp at h; subst h; exact ⟨_, rfl, hr⟩
  | _, _, .cons hr ht, i + 1, a, h => by simpa using forall₂_get ht i a (by simpa using h)

/-- Bounds of the sums in configuration `i`, number of columns `k`. -/
theorem sums_exist {o : Options} {isPublic : Bool} {h : Hists} {vs : List Val} (ht : Tunable o isPublic h vs) {acc1 acc2 : ℕ → ℕ}
    {c : Multi Unit Unit} (hc : findCandidates o.request h acc1 acc2 = .ok c) {n : ℕ} (hn : c.check = .ok n)
    (hm : Engine.Metric.sum ∈ o.params.metrics) {i : ℕ} (hi : i < n) :
    ∃ sums : List (ℚ × ℚ), SumsElement i c.minSum c.maxSum [(o.params.minSum, o.params.maxSum)]
        (sums.map fun b => (some b.1, some b.2)) ∧ (∀ b ∈ sums, ¬(b.1 = 0 ∧ b.2 = 0)) ∧
      sums.length = if o.tuneMaxSum then h.sums.length else 1 := by
  obtain ⟨l0s, m, n', e1, e2, e3, e4, e5, e6, e7, e8, e9, e10⟩ := Tuning.C46_configuration o.request h acc1 acc2 c ht.candidates hc
  rw [hn] at e1; cases e1
  cases htune : o.tuneMaxSum with
  | false =>
    obtain ⟨⟨lo, hi', g1, g2, g3⟩, -⟩ := ht.givenSums hm htune
    have hs := (e9 (by simp [Options.request, htune])).1
    refine ⟨[(lo, hi')], ⟨?_, fun _ => by simp [g1, g2]⟩, by simpa using g3, by simp⟩
    intro l l' hl; rw [hs] at hl; cases hl
  | true =>
    obtain ⟨cols, i1, i2, f⟩ := e10 (by simp [Options.request, htune, hm])
    obtain ⟨hb, hp1, hfit⟩ := ht.tunedSums hm htune
    have hlen : cols.length = h.sums.length := f.length_eq.symm
    have hcols : ∀ a ∈ cols, a.length = m := by
      intro a ha
      obtain ⟨j, hj, rfl⟩ := List.getElem_of_mem ha
      exact (f.get (by rw [f.length_eq]; exact hj) hj).1
    have hpos : ∀ a ∈ cols, ∀ x ∈ a, 0 < x := by
      intro a ha x hx
      obtain ⟨j, hj, rfl⟩ := List.getElem_of_mem ha
      obtain ⟨-, a0, g1, -, g3⟩ := f.get (by rw [f.length_eq]; exact hj) hj
      obtain ⟨hpw, hbp⟩ := hb _ (List.getElem_mem (by rw [f.length_eq]; exact hj))
      have hk : 1 ≤ o.request.maxCandidates / l0s.length := by
        obtain ⟨q1, q2, -⟩ := Tuning.l0Bounds_ok e2
        rw [Nat.le_div_iff_mul_le (by omega)]; have := q2 ht.candidates; omega
      obtain ⟨a', q1, -, -, -, -, q6⟩ := Tuning.C46_subsample (o.request.maxCandidates / l0s.length)
        (h.sums[j]'(by rw [f.length_eq]; exact hj)) hk (by
          rintro h0
          rw [h0] at hbp; simp at hbp) hpw
      rw [List.get_eq_getElem] at g1
      rw [g1] at q1; cases q1
      exact (q6 hbp).2 x (g3 x hx)
    obtain ⟨mn, a1, a2, a3, a4⟩ := i1
    obtain ⟨mx, b1, b2, b3, b4⟩ := i2
    have hmn : i < mn.length := by omega
    have hmx : i < mx.length := by omega
    have m1 := inner_mem ⟨mn, a1, a2, a3, a4⟩ a1 _ (List.getElem_mem hmn)
    have m2 := inner_mem ⟨mx, b1, b2, b3, b4⟩ b1 _ (List.getElem_mem hmx)
    have q1 := List.getElem?_eq_getElem hmn
    have q2 := List.getElem?_eq_getElem hmx
    have nn : ¬(c.minSum = none ∨ c.minSum = some []) := by
      rw [a1]; rintro (h0 | h0)
      · cases h0
      · cases h0; simp at hmn
    rcases sumLists_pos hcols hpos _ m2 with ⟨y, hy, hy0, hk⟩ | ⟨ys, hy, hyl, hy0, hk⟩
    · have hx := (sumLists_kind cols).1 hk _ (List.mem_append_left _ m1)
      rcases hxe : mn[i] with x | xs
      swap
      · rw [hxe] at hx; cases hx
      · refine ⟨[(x, y)], ⟨?_, fun h0 => absurd h0 nn⟩, ?_, by simp [← hlen, hk]⟩
        · intro l l' hl hl' _
          rw [a1] at hl; rw [b1] at hl'; cases hl; cases hl'
          exact .inl ⟨x, y, by rw [q1, hxe], by rw [q2, hy], rfl⟩
        · intro b hb0
          simp only [List.mem_singleton] at hb0
          subst hb0
          exact fun h0 => absurd h0.2 hy0.ne'
    · have hx := (sumLists_kind cols).2 hk _ (List.mem_append_left _ m1)
      rcases hxe : mn[i] with x | xs
      swap
      · have hxl := sumLists_length1 cols _ m1 xs hxe
        refine ⟨xs.zip ys, ⟨?_, fun h0 => absurd h0 nn⟩, ?_, by simp [hxl, hyl, hlen]⟩
        · intro l l' hl hl' _
          rw [a1] at hl; rw [b1] at hl'; cases hl; cases hl'
          refine .inr ⟨xs, ys, by rw [q1, hxe], by rw [q2, hy], ?_, ?_⟩
          · rw [List.map_map]
            conv_rhs => rw [← List.map_fst_zip (l₁ := xs) (l₂ := ys) (by omega), List.map_map]
            rfl
          · rw [List.map_map]
            conv_rhs => rw [← List.map_snd_zip (l₁ := xs) (l₂ := ys) (by omega), List.map_map]
            rfl
        · intro b hb0
          exact fun h0 => absurd h0.2 (hy0 _ (List.of_mem_zip hb0).2).ne'
      · rw [hxe] at hx; cases hx

theorem settings_exist {o : Options} {isPublic : Bool} {h : Hists} {vs : List Val} (ht : Tunable o isPublic h vs) {acc1 acc2 : ℕ → ℕ}
    {c0 : Multi Unit Unit} (hc : findCandidates o.request h acc1 acc2 = .ok c0) (lib : PyDP) :
    ∃ (c : Multi NoiseKind Engine.Strategy) (S : List Setting),
      withStrategies lib ⟨(o.eps : ℝ), (o.delta : ℝ), o.params.metrics, isPublic⟩ (fixedNoise o) o.params c0 = .ok c ∧
      c.l0 = c0.l0 ∧ c.linf = c0.linf ∧ c.minSum = c0.minSum ∧ c.maxSum = c0.maxSum ∧
      c0.check = .ok S.length ∧ c.check = .ok S.length ∧ 1 ≤ S.length ∧ S.length ≤ o.candidates ∧
      Analysable o.delta o.params (some c) isPublic S vs ∧ ∀ s ∈ S, Chosen lib o isPublic s ∧
        (Engine.Metric.sum ∈ o.params.metrics → s.sums.length = if o.tuneMaxSum then h.sums.length else 1) := by
  obtain ⟨l0s, m, n, hck, hl0s, hn, hpos, hle, ⟨l, hl, hlen, hli⟩, e7, e8, -, -⟩ :=
    Tuning.C46_configuration o.request h acc1 acc2 c0 ht.candidates hc
  obtain ⟨hno, hst⟩ := findCandidates_plain hc
  have hkind := sameKind_candidates (r := o.request) ht.candidates hc
  have hlpos : ∀ x ∈ l, 1 ≤ x := by
    intro x hx
    obtain ⟨i, hi, rfl⟩ := List.getElem_of_mem hx
    have := hli i (by omega)
    rw [List.getElem?_eq_getElem hi] at this
    exact l0Bounds_pos hl0s _ (List.mem_of_getElem? this.symm)
  set c1 : Multi NoiseKind Engine.Strategy := ⟨c0.l0, c0.linf, c0.minSum, c0.maxSum, none, none⟩ with hc1
  have hck1 : c1.check = .ok n := check_with hck hno hst none none (by intro l h; cases h) (by intro l h; cases h)
  obtain ⟨ps, hps, hpsl, hpsg, -⟩ := Config.C55_all c1 n hck1 hkind (blueprint o.params)
  have hpl : (ps.map fun x => x.1.l0) = l.map some := by
    apply List.ext_getElem?
    intro i
    by_cases hi : i < n
    · obtain ⟨e, g1, g2⟩ := hpsg i hi
      obtain ⟨q, sums, g3, a1, -⟩ := Config.C55_element c1 n i hck1 hi hkind (blueprint o.params)
      rw [g2] at g3; cases g3
      have := (a1.1 l hl (by intro h0; rw [h0] at hlen; simp at hlen; omega)).1
      rw [List.getElem?_map, g1, List.getElem?_map, Option.map_some, this]
      rw [List.getElem?_eq_getElem (by omega : i < l.length)]
      rfl
    · rw [List.getElem?_eq_none (by simp; omega), List.getElem?_eq_none (by simp; omega)]
  set sel : Selector := ⟨(o.eps : ℝ), (o.delta : ℝ), o.params.metrics, isPublic⟩ with hsel
  obtain ⟨noise, str, ds, s1, s2, s3, s4, s5⟩ := Strategy.C47_configurations lib sel (fixedNoise o) l hlpos
  set c : Multi NoiseKind Engine.Strategy := { c1 with
    noise := some (noise.map fun k => k.getD o.params.noiseKind)
    strategy := str.map fun l => l.map fun st => st.getD o.params.strategy } with hcdef
  have hdl : ds.length = n := by rw [← hlen]; exact s2.length_eq.symm
  have hw : withStrategies lib sel (fixedNoise o) o.params c0 = .ok c := by
    unfold withStrategies
    dsimp only
    rw [← hc1, hps]
    change (raising TuneFail.selector (addStrategies lib sel (fixedNoise o) (ps.map fun x => x.1.l0)) >>= _) = _
    rw [hpl, s1]
    rfl
  have hckc : c.check = .ok n := by
    refine check_with hck hno hst _ _ ?_ ?_
    · intro l' h'; cases h'; rw [List.length_map, s5, hlen]
    · intro l' h'
      rw [s4] at h'
      cases isPublic with
      | true => simp [hsel] at h'
      | false => simp [hsel] at h'; subst h'; simp [hdl]
  -- one setting
  have key : ∀ i < n, ∃ s : Setting, s.IsOf o.params (some c) i ∧ 1 ≤ s.l0 ∧ 1 ≤ s.linf ∧
      (Engine.Metric.sum ∈ o.params.metrics → (∀ b ∈ s.sums, ¬(b.1 = 0 ∧ b.2 = 0)) ∧
        s.sums.length = if o.tuneMaxSum then h.sums.length else 1) ∧
      (s.noise = .gaussian → 0 < o.delta) ∧ Chosen lib o isPublic s := by
    intro i hi
    have hil : i < l.length := by omega
    have hx := List.getElem?_eq_getElem hil
    set x := l[i] with hxdef
    have hxpos : 1 ≤ x := hlpos x (List.getElem_mem hil)
    -- linf
    obtain ⟨y, hy, hyel⟩ : ∃ y, 1 ≤ y ∧ Element i c.linf o.params.maxPerPartition (some y) := by
      by_cases hcount : o.request.count = true
      · obtain ⟨base, k0, g1, g2, g3, g4⟩ := e8 hcount
        obtain ⟨l', q1, q2, q3, q4⟩ := g4
        have hi' : i < l'.length := by omega
        refine ⟨l'[i], relativeStep_pos g1 _ (g3 _ (inner_mem ⟨l', q1, q2, q3, q4⟩ q1 _ (List.getElem_mem hi'))), ?_⟩
        show Element i c0.linf _ _
        rw [q1]
        exact element_some _ (List.getElem?_eq_getElem hi')
      · have hcount' : o.request.count = false := by simpa using hcount
        rcases ht.linf with ⟨h1, h2⟩ | ⟨y, h1, h2⟩
        · exact absurd (by simp [Options.request, h1, h2]) hcount
        · refine ⟨y, h2, ?_⟩
          show Element i c0.linf _ _
          rw [e7 hcount']
          exact element_none h1
    -- sums
    obtain ⟨sums, hsums⟩ : ∃ sums : List (ℚ × ℚ), Engine.Metric.sum ∈ o.params.metrics →
        SumsElement i c0.minSum c0.maxSum [(o.params.minSum, o.params.maxSum)] (sums.map fun b => (some b.1, some b.2)) ∧
        (∀ b ∈ sums, ¬(b.1 = 0 ∧ b.2 = 0)) ∧ sums.length = if o.tuneMaxSum then h.sums.length else 1 := by
      by_cases hm : Engine.Metric.sum ∈ o.params.metrics
      · obtain ⟨sums, h1⟩ := sums_exist ht hc hck hm hi
        exact ⟨sums, fun _ => h1⟩
      · exact ⟨[], fun h => absurd h hm⟩
    -- strategy
    obtain ⟨d, hd, s', hs', hget⟩ := forall₂_get s2 i x hx
    have hx0 : (0 : ℝ) < x := by exact_mod_cast hxpos
    obtain ⟨d', hget', d1, d2, d3, d4⟩ := Strategy.C47_strategy lib sel x 1 hx0 one_pos s' hs'
    rw [hget] at hget'; cases hget'
    have hnoise : (noise.map fun k => k.getD o.params.noiseKind)[i]? =
        some ((if fixedNoise o = none then d.noise else fixedNoise o).getD o.params.noiseKind) := by
      rw [s3, List.map_map, List.getElem?_map, hd]; rfl
    set st : Engine.Strategy := if isPublic then o.params.strategy else d.selection.getD o.params.strategy with hstdef
    refine ⟨⟨x, y, (if fixedNoise o = none then d.noise else fixedNoise o).getD o.params.noiseKind, st, sums⟩,
      ⟨?_, hyel, element_some _ hnoise, ?_, fun hm => (hsums hm).1⟩, hxpos, hy, fun hm => (hsums hm).2, ?_, ?_⟩
    · show Element i c0.l0 _ _
      rw [hl]; exact element_some _ hx
    · show Element i (str.map _) _ _
      rw [s4]
      cases isPublic with
      | true => exact element_none rfl
      | false =>
        refine element_some _ ?_
        dsimp only
        rw [List.map_map, List.getElem?_map, hd]; rfl
    · intro hg
      dsimp only at hg
      by_cases hpub : isPublic = false
      · exact ht.selection hpub
      · have hpub' : isPublic = true := by simpa using hpub
        cases htn : o.tuneNoise with
        | false =>
          rw [fixedNoise, htn] at hg
          exact ht.gaussian htn hg
        | true =>
          obtain ⟨-, -, k, hk, hbest⟩ := d2 (ht.publicMetrics hpub') hpub'
          simp only [fixedNoise, htn, if_true, hk, Option.getD_some] at hg
          subst hg
          by_contra h0
          have hz : o.delta = 0 := le_antisymm (not_lt.1 h0) ht.delta.1
          have := hbest.noDelta (by simp [hsel, hz])
          cases this
    · have hfix : o.tuneNoise = true → (if fixedNoise o = none then d.noise else fixedNoise o) = d.noise := by
        intro h0; simp [fixedNoise, h0]
      refine ⟨?_, ?_, ?_, ?_, ?_, ?_, ?_⟩
      · intro h0; simp [fixedNoise, h0]
      · intro h0 h1
        obtain ⟨-, -, k, hk, hbest⟩ := d2 (ht.publicMetrics h1) h1
        dsimp only
        rw [hfix h0, hk]; exact hbest
      · intro h0 h1 h2
        obtain ⟨-, k, hk, hbest, -⟩ := d3 (List.ne_nil_of_mem h2) h1 h2
        dsimp only
        rw [hfix h0, hk]; exact hbest
      · intro h0 h1 h2 h3
        obtain ⟨-, ⟨k, hk, hbest⟩, -⟩ := d4 h2 h1 h3
        dsimp only
        rw [hfix h0, hk]; exact hbest
      · intro h0
        have h1 : isPublic = false := by
          by_contra hp; exact ht.publicMetrics (by simpa using hp) h0
        obtain ⟨-, -, k, hk, hbest⟩ := d1 h0
        simp only [hstdef, h1, hk]; exact hbest
      · intro h1 h2
        obtain ⟨-, k, hk, hbest, hsl⟩ := d3 (List.ne_nil_of_mem h2) h1 h2
        exact ⟨k, hbest, by simp [hstdef, h1, hsl]⟩
      · intro h1 h2 h3
        obtain ⟨-, -, k, hk, hbest⟩ := d4 h2 h1 h3
        simp only [hstdef, h1, hk]; exact hbest
  obtain ⟨S, hSl, hS⟩ := list_of_forall n key
  have hmem : ∀ s ∈ S, ∃ i : ℕ, S[i]? = some s := fun s hs => List.mem_iff_getElem?.1 hs
  refine ⟨c, S, hw, rfl, rfl, rfl, rfl, by rw [hSl]; exact hck, by rw [hSl]; exact hckc, by omega, by rw [hSl]; exact hle,
    ⟨ht.metrics, ht.notEnforced, ht.thresholding, ht.maxContributions, (by intro h0; cases h0), ?_, fun i s hs => (hS i s hs).1, ?_, ?_,
      ?_, ?_, ht.shape⟩, ?_⟩
  · intro q hq; cases hq
    refine ⟨by rw [hSl]; exact hckc, hkind, fun h0 h1 => ?_⟩
    have h2 := (Config.C55_lengths c n hckc)
    change (str.map _) = some [] at h1
    rw [s4] at h1
    subst h0
    simp [hsel] at h1
    rw [h1] at hdl; simp at hdl; omega
  · intro s hs
    obtain ⟨i, hi⟩ := hmem s hs
    exact ⟨(hS i s hi).2.1, (hS i s hi).2.2.1⟩
  · intro hm
    refine ⟨ht.minValue hm, fun s hs => ?_⟩
    obtain ⟨i, hi⟩ := hmem s hs
    exact ((hS i s hi).2.2.2.1 hm).1
  · rintro ⟨s, hs, hg⟩
    obtain ⟨i, hi⟩ := hmem s hs
    exact (hS i s hi).2.2.2.2.1 hg
  · intro hm
    refine ⟨if o.tuneMaxSum then h.sums.length else 1, fun hp => ?_, ?_, fun s hs => ?_⟩
    · cases htune : o.tuneMaxSum with
      | false => rfl
      | true => simpa using (ht.tunedSums hm htune).2.1 hp
    · cases htune : o.tuneMaxSum with
      | false => exact (ht.givenSums hm htune).2
      | true => exact (ht.tunedSums hm htune).2.2
    · obtain ⟨i, hi⟩ := hmem s hs
      exact ((hS i s hi).2.2.2.1 hm).2
  · intro s hs
    obtain ⟨i, hi⟩ := hmem s hs
    exact ⟨(hS i s hi).2.2.2.2.2, fun hm => ((hS i s hi).2.2.2.1 hm).2⟩

end PDP.Analysis.Tune
